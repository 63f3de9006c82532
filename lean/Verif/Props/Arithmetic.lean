import Verif.Refine.Rel
import Verif.Props.TracerLinear
import Verif.Props.Conservation
import Verif.Props.Uniform
import Verif.Props.Trisk

/-!
# C52: what the theorems over the real numbers say when division by zero is undefined

The theorems over `ℝ` use Lean's convention `x / 0 = 0`.  Here the same programs run in exact
arithmetic with an absorbing undefined value (`Option ℝ`), which division by zero produces as in
IEEE arithmetic without the infinities.
-/

set_option linter.unusedVariables false
set_option linter.unusedSectionVars false

namespace Omega
noncomputable section
namespace Props

open Refine Model

/-- the same parameters in arithmetic with an undefined value -/
def Params.lift (prm : Params ℝ) : Params (Option ℝ) where
  f0 := some prm.f0
  grav := some prm.grav
  visc_del2 := some prm.visc_del2
  visc_del4 := some prm.visc_del4
  eddy_diff2 := some prm.eddy_diff2
  eddy_diff4 := some prm.eddy_diff4
  disable_h := prm.disable_h
  disable_vn := prm.disable_vn

/-- the same model, without additional tendency -/
def SWModel.lift (sw : SWModel ℝ) : SWModel (Option ℝ) where
  prm := Params.lift sw.prm
  en_hadv := sw.en_hadv
  en_pv := sw.en_pv
  en_ke := sw.en_ke
  en_ssh := sw.en_ssh
  en_vdiff := sw.en_vdiff
  en_vhyper := sw.en_vhyper
  en_thadv := sw.en_thadv
  en_tdiff := sw.en_tdiff
  en_thyper := sw.en_thyper
  hook _ _ _ := []

theorem lift_noHook (sw : SWModel ℝ) : (SWModel.lift sw).NoHook := fun _ _ _ => rfl

/-- the constructor makes the same model in both arithmetics -/
theorem lift_ofParams (prm : Params ℝ) :
    SWModel.lift (SWModel.ofParams prm) = SWModel.ofParams (Params.lift prm) := by
  have h : ∀ x : ℝ, Scalar.lt (lit 0 : ℝ) x = Scalar.lt (lit 0 : Option ℝ) (some x) := fun x => by
    show _ = @decide (((0 : Int) : ℝ) < x) (Classical.dec _)
    simp [Scalar.lt, lit, Scalar.lit]
  unfold SWModel.lift SWModel.ofParams
  simp only [h]
  rfl

/-- undefined, or equal -/
def UndefOrEq (o : Option ℝ) (r : ℝ) : Prop := o = none ∨ o = some r

theorem scRel_undef : ScRel UndefOrEq (fun _ => True) where
  nz _ _ := trivial
  lit n := .inr rfl
  add := by
    rintro x x' y y' (rfl | rfl) (rfl | rfl)
    exacts [.inl rfl, .inl rfl, .inl rfl, .inr rfl]
  sub := by
    rintro x x' y y' (rfl | rfl) (rfl | rfl)
    exacts [.inl rfl, .inl rfl, .inl rfl, .inr rfl]
  mul := by
    rintro x x' y y' (rfl | rfl) (rfl | rfl)
    exacts [.inl rfl, .inl rfl, .inl rfl, .inr rfl]
  div := by
    rintro x x' y y' (rfl | rfl) (rfl | rfl) -
    · exact .inl rfl
    · exact .inl rfl
    · exact .inl rfl
    · by_cases h : y' = 0
      · left
        show (if y' = 0 then none else some (x' / y')) = _
        rw [if_pos h]
      · exact .inr (some_div _ h)

theorem scRel_some : ScRel (fun o (r : ℝ) => o = some r) (fun r => r ≠ 0) where
  nz n h := by rw [show (lit n : ℝ) = n from rfl]; exact_mod_cast h
  lit n := rfl
  add := by rintro x x' y y' rfl rfl; rfl
  sub := by rintro x x' y y' rfl rfl; rfl
  mul := by rintro x x' y y' rfl rfl; rfl
  div := by rintro x x' y y' rfl rfl h; exact some_div _ h

theorem some_neg (a : ℝ) : (-(some a) : Option ℝ) = some (-a) := rfl

theorem some_litdiv (a : Int) {b : Int} (hb : b ≠ 0) :
    (lit a / lit b : Option ℝ) = some (lit a / lit b : ℝ) :=
  some_div _ (by exact_mod_cast hb)

theorem wRaw_some (j t : Int) : (wRaw j t : Option ℝ) = some (wRaw j t) := by
  have h3 : ((3 : Int) : ℝ) ≠ 0 := by norm_num
  have h6 : ((6 : Int) : ℝ) ≠ 0 := by norm_num
  unfold wRaw
  split_ifs <;> simp only [some_lit, some_neg, some_div _ h3, some_div _ h6] <;> rfl

theorem sqrt3_some : Scalar.sqrt (lit 3 : Option ℝ) = some (Scalar.sqrt (lit 3 : ℝ)) :=
  some_sqrt (by norm_num)

theorem sqrt3_ne : (Scalar.sqrt (lit 3 : ℝ)) ≠ 0 := by
  show Real.sqrt ((3 : Int) : ℝ) ≠ 0
  positivity

/-- the renaming that changes nothing -/
def Ren.id : Ren := ⟨fun i => i, fun i => i, fun i => i⟩

theorem hexMesh_some {p : MeshParams} (hv : MeshParams.Valid p) {dc : ℝ} {mN : Mem (Option ℝ)}
    {m : Mem ℝ} (hN : IsHexMesh p (some dc) mN) (h : IsHexMesh p dc m)
    {ρ : Option ℝ → ℝ → Prop} {NZ : ℝ → Prop} (hρ : ∀ r, ρ (some r) r)
    (nz : dc ≠ 0 → ∀ r, r ≠ 0 → NZ r) (nz0 : dc = 0 → ∀ r, NZ r) :
    MeshRel ρ NZ Ren.id p.dims mN.mesh m.mesh := by
  have l2 : (lit 2 : ℝ) ≠ 0 := by show ((2 : Int) : ℝ) ≠ 0; norm_num
  have l3 : (lit 3 : ℝ) ≠ 0 := by show ((3 : Int) : ℝ) ≠ 0; norm_num
  have l4 : (lit 4 : ℝ) ≠ 0 := by show ((4 : Int) : ℝ) ≠ 0; norm_num
  have l12 : (lit 12 : ℝ) ≠ 0 := by show ((12 : Int) : ℝ) ≠ 0; norm_num
  have ls : ∀ n : Int, (lit n : Option ℝ) = some (lit n : ℝ) := fun _ => rfl
  have eq : ∀ {o : Option ℝ} {r : ℝ}, o = some r → ρ o r := fun h => h ▸ hρ _
  have hNZ : ∀ r : ℝ, (dc ≠ 0 → r ≠ 0) → NZ r := fun r hr => by
    by_cases h0 : dc = 0
    · exact nz0 h0 r
    · exact nz h0 r (hr h0)
  have hdv : ∀ e, 0 ≤ e → e < p.dims.nedges → mN.mesh.dv e = some (m.mesh.dv e) := by
    intro e h0 h1
    show mN.real .dv_edge 0 e 0 = some (m.real .dv_edge 0 e 0)
    rw [hN.dv_edge e h0 h1, h.dv_edge e h0 h1, sqrt3_some, ls, some_mul, some_div _ l3]
  have hdc : ∀ e, 0 ≤ e → e < p.dims.nedges → mN.mesh.dc e = some (m.mesh.dc e) := by
    intro e h0 h1
    show mN.real .dc_edge 0 e 0 = some (m.real .dc_edge 0 e 0)
    rw [hN.dc_edge e h0 h1, h.dc_edge e h0 h1]
  have hdvv : ∀ e, 0 ≤ e → e < p.dims.nedges → m.mesh.dv e = dc * Scalar.sqrt (lit 3) / lit 3 :=
    fun e h0 h1 => h.dv_edge e h0 h1
  have hdcv : ∀ e, 0 ≤ e → e < p.dims.nedges → m.mesh.dc e = dc := fun e h0 h1 => h.dc_edge e h0 h1
  have hq : (quarter : Option ℝ) = some (quarter : ℝ) := some_litdiv 1 (by norm_num)
  constructor
  · intro c h0 h1
    show mN.int .nedges_on_cell c 0 = m.int .nedges_on_cell c 0
    rw [hN.neoc c ⟨h0, h1⟩, h.neoc c ⟨h0, h1⟩]
  · intro c h0 h1 j j0 j1
    have j1 : j < m.int .nedges_on_cell c 0 := j1
    rw [h.neoc c ⟨h0, h1⟩] at j1
    show mN.int .edges_on_cell c j = m.int .edges_on_cell c j
    rw [hN.eoc c ⟨h0, h1⟩ j j0 j1, h.eoc c ⟨h0, h1⟩ j j0 j1]
  · intro e h0 h1 j j0 j1
    show mN.int .cells_on_edge e j = m.int .cells_on_edge e j
    rw [hN.coe e h0 h1 j j0 j1, h.coe e h0 h1 j j0 j1]
  · intro e h0 h1 j j0 j1
    show mN.int .vertices_on_edge e j = m.int .vertices_on_edge e j
    rw [hN.voe e h0 h1 j j0 j1, h.voe e h0 h1 j j0 j1]
  · intro e h0 h1 j j0 j1
    show mN.int .edges_on_vertex e j = m.int .edges_on_vertex e j
    rw [hN.eov e h0 h1 j j0 j1, h.eov e h0 h1 j j0 j1]
  · intro e h0 h1 j j0 j1
    show mN.int .cells_on_vertex e j = m.int .cells_on_vertex e j
    rw [hN.cov e h0 h1 j j0 j1, h.cov e h0 h1 j j0 j1]
  · intro e h0 h1
    show mN.int .nedges_on_edge e 0 = m.int .nedges_on_edge e 0
    rw [hN.neoe e h0 h1, h.neoe e h0 h1]
  · intro e h0 h1 j j0 j1
    have j1 : j < m.int .nedges_on_edge e 0 := j1
    rw [h.neoe e h0 h1] at j1
    show mN.int .edges_on_edge e j = m.int .edges_on_edge e j
    rw [hN.eoe e h0 h1 j j0 j1, h.eoe e h0 h1 j j0 j1]
  · intro c h0 h1
    apply eq
    show mN.real .area_cell 0 c 0 = some (m.real .area_cell 0 c 0)
    rw [hN.area_cell c ⟨h0, h1⟩, h.area_cell c ⟨h0, h1⟩, sqrt3_some, ls, some_mul, some_mul,
      some_div _ l2]
  · intro c h0 h1
    apply eq
    show mN.real .area_triangle 0 c 0 = some (m.real .area_triangle 0 c 0)
    rw [hN.area_triangle c h0 h1, h.area_triangle c h0 h1, sqrt3_some, ls, some_mul, some_mul,
      some_div _ l4]
  · exact fun e h0 h1 => eq (hdv e h0 h1)
  · exact fun e h0 h1 => eq (hdc e h0 h1)
  · intro e h0 h1
    apply eq
    show maxS (mN.mesh.dv e) (quarter * mN.mesh.dc e) = _
    rw [hdv e h0 h1, hdc e h0 h1, hq, some_mul]
    unfold maxS
    have : Scalar.lt (some (m.mesh.dv e) : Option ℝ) (some (quarter * m.mesh.dc e)) =
        Scalar.lt (m.mesh.dv e) (quarter * m.mesh.dc e) := by
      show @decide _ (Classical.dec _) = _
      simp [Scalar.lt]
    rw [this]
    show _ = some (if _ then _ else _)
    split_ifs <;> rfl
  · intro c h0 h1 j j0 j1
    have j1 : j < m.int .nedges_on_cell c 0 := j1
    rw [h.neoc c ⟨h0, h1⟩] at j1
    apply eq
    show mN.real .edge_sign_on_cell 0 c j = some (m.real .edge_sign_on_cell 0 c j)
    rw [hN.sign_cell c ⟨h0, h1⟩ j j0 j1, h.sign_cell c ⟨h0, h1⟩ j j0 j1]
    split_ifs <;> rfl
  · intro c h0 h1 j j0 j1
    apply eq
    show mN.real .edge_sign_on_vertex 0 c j = some (m.real .edge_sign_on_vertex 0 c j)
    rw [hN.sign_vertex c h0 h1 j j0 j1, h.sign_vertex c h0 h1 j j0 j1]
    split_ifs <;> rfl
  · intro c h0 h1 j j0 j1
    apply eq
    show mN.real .kiteareas_on_vertex 0 c j = some (m.real .kiteareas_on_vertex 0 c j)
    rw [hN.kitearea c h0 h1 j j0 j1, h.kitearea c h0 h1 j j0 j1, sqrt3_some, ls, some_mul, some_mul,
      some_div _ l12]
  · intro e h0 h1 j j0 j1
    have j1 : j < m.int .nedges_on_edge e 0 := j1
    rw [h.neoe e h0 h1] at j1
    apply eq
    show mN.real .weights_on_edge 0 e j = some (m.real .weights_on_edge 0 e j)
    rw [hN.woe e h0 h1 j j0 j1, h.woe e h0 h1 j j0 j1, wRaw_some, sqrt3_some, ls,
      some_div _ sqrt3_ne, some_mul]
  · intro e h0 h1 k k0 k1
    apply eq
    show mN.real .edge_mask 0 e k = some (m.real .edge_mask 0 e k)
    rw [hN.mask e h0 h1 k k0 k1, h.mask e h0 h1 k k0 k1]; rfl
  · intro e h0 h1
    apply eq
    show mN.real .mesh_scaling_del2 0 e 0 = some (m.real .mesh_scaling_del2 0 e 0)
    rw [hN.del2 e h0 h1, h.del2 e h0 h1]; rfl
  · intro e h0 h1
    apply eq
    show mN.real .mesh_scaling_del4 0 e 0 = some (m.real .mesh_scaling_del4 0 e 0)
    rw [hN.del4 e h0 h1, h.del4 e h0 h1]; rfl
  · intro c h0 h1
    refine hNZ _ fun hd => ?_
    show m.real .area_cell 0 c 0 ≠ 0
    rw [h.area_cell c ⟨h0, h1⟩]
    exact div_ne_zero (mul_ne_zero (mul_ne_zero hd hd) sqrt3_ne) l2
  · intro c h0 h1
    refine hNZ _ fun hd => ?_
    show m.real .area_triangle 0 c 0 ≠ 0
    rw [h.area_triangle c h0 h1]
    exact div_ne_zero (mul_ne_zero (mul_ne_zero hd hd) sqrt3_ne) l4
  · intro e h0 h1
    refine hNZ _ fun hd => ?_
    rw [hdvv e h0 h1]
    exact div_ne_zero (mul_ne_zero hd sqrt3_ne) l3
  · intro e h0 h1
    refine hNZ _ fun hd => ?_
    rw [hdcv e h0 h1]
    exact hd
  · intro e h0 h1
    refine hNZ _ fun hd => ?_
    unfold maxS
    split_ifs
    · rw [hdcv e h0 h1]
      exact mul_ne_zero (div_ne_zero (by show ((1 : Int) : ℝ) ≠ 0; norm_num) l4) hd
    · rw [hdvv e h0 h1]
      exact div_ne_zero (mul_ne_zero hd sqrt3_ne) l3

section

variable {p : MeshParams} {dc : ℝ} {prm : Params ℝ} {mN m1N : Mem (Option ℝ)} {m m1 : Mem ℝ}
  (hv : RunValid p) (hrN : Ready p (some dc) (Params.lift prm) mN) (hr : Ready p dc prm m)
  {sw : SWModel ℝ} (hn : sw.NoHook)

theorem sysRel_lift (hv : RunValid p) (hrN : Ready p (some dc) (Params.lift prm) mN)
    (hr : Ready p dc prm m) (sw : SWModel ℝ) {ρ : Option ℝ → ℝ → Prop} {NZ : ℝ → Prop}
    (hS : ScRel ρ NZ) (hρ : ∀ r, ρ (some r) r)
    (nz : dc ≠ 0 → ∀ r, r ≠ 0 → NZ r) (nz0 : dc = 0 → ∀ r, NZ r) :
    SysRel ρ NZ Ren.id p.dims (genSys p.dims (SWModel.lift sw) noHook mN)
      (genSys p.dims sw noHook m) where
  sc := hS
  ren := ⟨fun i h0 h1 => ⟨h0, h1⟩, fun i h0 h1 => ⟨h0, h1⟩⟩
  F := .inl ⟨rfl, rfl⟩
  mesh := hexMesh_some hv.toValid (hrN.hex hv.toValid).1 (hr.hex hv.toValid).1 hρ nz nz0
  ok := (ready_ok hv hr).2.mesh
  f v h0 h1 := by
    show ρ (mN.real .f_vertex 0 v 0) (m.real .f_vertex 0 v 0)
    rw [(hrN.hex hv.toValid).2.1 v h0 h1, (hr.hex hv.toValid).2.1 v h0 h1]
    exact hρ _
  grav := hρ _
  visc2 := hρ _
  visc4 := hρ _
  eddy2 := hρ _
  eddy4 := hρ _
  dis_h := rfl
  dis_vn := rfl
  en_hadv := rfl
  en_pv := rfl
  en_ke := rfl
  en_ssh := rfl
  en_vdiff := rfl
  en_vhyper := rfl
  en_thadv := rfl
  en_tdiff := rfl
  en_thyper := rfl
  hookH _ _ _ _ _ _ _ _ _ _ _ h := h
  hookV _ _ _ _ _ _ _ _ _ _ _ h := h

/-- the same sequence of steps -/
def liftSched (sched : List (ℝ × ℝ)) : List (Option ℝ × Option ℝ) :=
  sched.map fun q => (some q.1, some q.2)

theorem liftSched_rel {ρ : Option ℝ → ℝ → Prop} (hρ : ∀ r, ρ (some r) r) (sched : List (ℝ × ℝ)) :
    List.Forall₂ (fun x y => ρ x.1 y.1 ∧ ρ x.2 y.2) (liftSched sched) sched := by
  induction sched with
  | nil => exact .nil
  | cons q L ih => exact .cons ⟨hρ _, hρ _⟩ ih

/-- the entries of a state satisfy a relation -/
def Entries (d : Dims) (ρ : Option ℝ → ℝ → Prop) (x : Fld (Option ℝ)) (y : Fld ℝ) : Prop :=
  (∀ c k, 0 ≤ c → c < d.ncells → 0 ≤ k → k < d.nlayers → ρ (x.h c k) (y.h c k)) ∧
  (∀ e k, 0 ≤ e → e < d.nedges → 0 ≤ k → k < d.nlayers → ρ (x.vn e k) (y.vn e k)) ∧
  (∀ l c k, 0 ≤ l → l < d.ntracers → 0 ≤ c → c < d.ncells → 0 ≤ k → k < d.nlayers →
    ρ (x.tr l c k) (y.tr l c k))

theorem entries_fldRel {d : Dims} {ρ : Option ℝ → ℝ → Prop} {x : Fld (Option ℝ)} {y : Fld ℝ} :
    Entries d ρ x y ↔ FldRel ρ Ren.id d x y :=
  ⟨fun h => ⟨h.1, h.2.1, h.2.2⟩, fun h => ⟨h.h, h.vn, h.tr⟩⟩

include hv hrN hr hn

/-- The same run in real arithmetic with `x / 0 = 0` and in arithmetic where `x / 0` is undefined,
from the same state: every entry of the final state is undefined or equal.  No condition on mesh,
state or steps. -/
theorem C52_undefined_or_exact {stp : Stepper} {sched : List (ℝ × ℝ)} {split splitN : Bool}
    (h0 : Entries p.dims (fun o r => o = some r) (mN.fld .state) (m.fld .state))
    (heN : Exec p.dims (stp.ctor p.dims ++ stp.run p.dims ⟨defaultKernels p.dims.vl, splitN⟩
      (SWModel.lift sw) (liftSched sched)) mN m1N)
    (he : Exec p.dims (stp.ctor p.dims ++ stp.run p.dims ⟨defaultKernels p.dims.vl, split⟩ sw sched)
      m m1) :
    Entries p.dims (fun o r => o = none ∨ o = some r) (m1N.fld .state) (m1.fld .state) := by
  obtain ⟨hd, hc⟩ := ready_ok hv hr
  obtain ⟨-, hcN⟩ := ready_ok hv hrN
  refine entries_fldRel.2 (newRun_rel (sysRel_lift hv hrN hr sw scRel_undef (fun _ => .inr rfl)
    (fun _ _ _ => trivial) (fun _ _ => trivial))
    (genSetup hd hcN (hookOK_noHook (lift_noHook sw) p.dims mN))
    (genSetup hd hc (hookOK_noHook hn p.dims m)) ?_ stp (liftSched_rel (ρ := UndefOrEq) (fun _ => .inr rfl) sched)
    heN he fun _ _ _ => ⟨fun _ _ _ _ _ _ => trivial, fun _ _ _ _ _ _ _ => trivial⟩)
  exact ⟨fun c k a b e f => .inr (h0.1 c k a b e f), fun c k a b e f => .inr (h0.2.1 c k a b e f),
    fun l c k i j a b e f => .inr (h0.2.2 l c k i j a b e f)⟩

/-- If, in real arithmetic, the thickness is nonzero at every vertex (and, with tracers, in every
cell) whenever the run calls `compute_tendency`, then the run in arithmetic with an undefined value
divides by no zero: its final state is defined everywhere and equal. -/
theorem C52_defined {stp : Stepper} {sched : List (ℝ × ℝ)} {split splitN : Bool} (hdc : dc ≠ 0)
    (h0 : Entries p.dims (fun o r => o = some r) (mN.fld .state) (m.fld .state))
    (heN : Exec p.dims (stp.ctor p.dims ++ stp.run p.dims ⟨defaultKernels p.dims.vl, splitN⟩
      (SWModel.lift sw) (liftSched sched)) mN m1N)
    (he : Exec p.dims (stp.ctor p.dims ++ stp.run p.dims ⟨defaultKernels p.dims.vl, split⟩ sw sched)
      m m1)
    (hw : ∀ st m', CallsAt p.dims ⟨defaultKernels p.dims.vl, split⟩ sw stp sched m st m' →
      (∀ v k, 0 ≤ v → v < p.dims.nvertices → 0 ≤ k → k < p.dims.nlayers →
        Spec.kiteMean m (fun c => m'.real (.h_cell st) 0 c k) v ≠ 0) ∧
      (0 < p.dims.ntracers → ∀ c k, 0 ≤ c → c < p.dims.ncells → 0 ≤ k → k < p.dims.nlayers →
        m'.real (.h_cell st) 0 c k ≠ 0)) :
    Entries p.dims (fun o r => o = some r) (m1N.fld .state) (m1.fld .state) := by
  obtain ⟨hd, hc⟩ := ready_ok hv hr
  obtain ⟨-, hcN⟩ := ready_ok hv hrN
  have hS := genSetup hd hc (hookOK_noHook hn p.dims m)
  refine entries_fldRel.2 (newRun_rel (sysRel_lift hv hrN hr sw scRel_some (fun _ => rfl)
    (fun _ _ h => h) (fun h => absurd h hdc))
    (genSetup hd hcN (hookOK_noHook (lift_noHook sw) p.dims mN))
    hS (entries_fldRel.1 h0) stp (liftSched_rel (ρ := fun o r => o = some r) (fun _ => rfl) sched)
    heN he fun st m' hca => ⟨fun v k v0 v1 k0 k1 => ?_, (hw st m' hca).2⟩)
  have := (hw st m' hca).1 v k v0 v1 k0 k1
  rw [← fn_hvert] at this
  exact this

/-- In arithmetic with an undefined value, total thickness and tracer content are conserved by every
run whose final state is defined: the entries are real numbers with the same area-weighted sums. -/
theorem C52_conservation (hx : 2 ≤ p.nx) (hy : 2 ≤ p.ny) (hdc : 0 < dc) {stp : Stepper}
    {sched : List (ℝ × ℝ)} {splitN : Bool}
    (h0 : Entries p.dims (fun o r => o = some r) (mN.fld .state) (m.fld .state))
    (heN : Exec p.dims (stp.ctor p.dims ++ stp.run p.dims ⟨defaultKernels p.dims.vl, splitN⟩
      (SWModel.lift sw) (liftSched sched)) mN m1N) {y : Fld ℝ}
    (h1 : Entries p.dims (fun o r => o = some r) (m1N.fld .state) y) :
    (∀ k ∈ Spec.layers p.dims, ∑ c ∈ Spec.cells p.dims, Spec.areaC m c * y.h c k =
      ∑ c ∈ Spec.cells p.dims, Spec.areaC m c * m.real (.h_cell .state) 0 c k) ∧
    ∀ l, 0 ≤ l → l < p.dims.ntracers → ∀ k ∈ Spec.layers p.dims,
      ∑ c ∈ Spec.cells p.dims, Spec.areaC m c * y.tr l c k =
      ∑ c ∈ Spec.cells p.dims, Spec.areaC m c * m.real (.tr_cell .state) l c k := by
  obtain ⟨hd, hc⟩ := ready_ok hv hr
  have hS := genSetup hd hc (hookOK_noHook hn p.dims m)
  obtain ⟨m0, r0, -, -⟩ := ctor_runs p.dims stp m
  obtain ⟨m1, he⟩ : ∃ m1, Exec p.dims (stp.ctor p.dims ++
      stp.run p.dims ⟨defaultKernels p.dims.vl, false⟩ sw sched) m m1 := by
    obtain ⟨m0, r0, a0, -⟩ := ctor_runs p.dims stp m
    obtain ⟨m1, r1, -⟩ := run_runs (hS.static a0) stp sched
    exact ⟨m1, (Runs.append r0 (r1 false)).exec⟩
  have hE := C52_undefined_or_exact hv hrN hr hn h0 heN he
  have hs := (hS.newRun he).1
  have eqh : ∀ c k, 0 ≤ c → c < p.dims.ncells → 0 ≤ k → k < p.dims.nlayers →
      y.h c k = m1.real (.h_cell .state) 0 c k := by
    intro c k c0 c1 k0 k1
    rcases hE.1 c k c0 c1 k0 k1 with h | h
    · rw [h1.1 c k c0 c1 k0 k1] at h; cases h
    · rw [h1.1 c k c0 c1 k0 k1] at h; exact Option.some.inj h
  have eqt : ∀ l c k, 0 ≤ l → l < p.dims.ntracers → 0 ≤ c → c < p.dims.ncells → 0 ≤ k →
      k < p.dims.nlayers → y.tr l c k = m1.real (.tr_cell .state) l c k := by
    intro l c k l0 l1 c0 c1 k0 k1
    rcases hE.2.2 l c k l0 l1 c0 c1 k0 k1 with h | h
    · rw [h1.2.2 l c k l0 l1 c0 c1 k0 k1] at h; cases h
    · rw [h1.2.2 l c k l0 l1 c0 c1 k0 k1] at h; exact Option.some.inj h
  refine ⟨fun k hk => ?_, fun l l0 l1 k hk => ?_⟩
  · rw [← (C17_mass_conserved hv hx hy hdc hr hn he).2 k hk]
    refine Finset.sum_congr rfl fun c hcc => ?_
    have hcc := Finset.mem_Ico.1 hcc
    have hk := Finset.mem_Ico.1 hk
    rw [area_static hs, eqh c k hcc.1 hcc.2 hk.1 hk.2]
  · rw [← C18_tracer_conserved hv hx hy hdc hr hn he l l0 l1 k hk]
    refine Finset.sum_congr rfl fun c hcc => ?_
    have hcc := Finset.mem_Ico.1 hcc
    have hk := Finset.mem_Ico.1 hk
    rw [area_static hs, eqt l c k l0 l1 hcc.1 hcc.2 hk.1 hk.2]

end

/-- A run with varying thickness, velocity and tracers meets the hypotheses of all three theorems. -/
example (prm : Params ℝ) : ∃ (mN m1N : Mem (Option ℝ)) (m m1 : Mem ℝ),
    Ready p46t (some (1 / 4)) (Params.lift prm) mN ∧ Ready p46t (1 / 4) prm m ∧
    Entries p46t.dims (fun o r => o = some r) (mN.fld .state) (m.fld .state) ∧
    Exec p46t.dims ((Stepper.lsrk 1).ctor p46t.dims ++ (Stepper.lsrk 1).run p46t.dims
      ⟨defaultKernels p46t.dims.vl, false⟩ (SWModel.lift (SWModel.ofParams prm))
      (liftSched [(0, 1)])) mN m1N ∧
    Exec p46t.dims ((Stepper.lsrk 1).ctor p46t.dims ++ (Stepper.lsrk 1).run p46t.dims
      ⟨defaultKernels p46t.dims.vl, false⟩ (SWModel.ofParams prm) [(0, 1)]) m m1 ∧
    (∀ st m', CallsAt p46t.dims ⟨defaultKernels p46t.dims.vl, false⟩ (SWModel.ofParams prm)
      (.lsrk 1) [(0, 1)] m st m' →
      (∀ v k, 0 ≤ v → v < p46t.dims.nvertices → 0 ≤ k → k < p46t.dims.nlayers →
        Spec.kiteMean m (fun c => m'.real (.h_cell st) 0 c k) v ≠ 0) ∧
      (0 < p46t.dims.ntracers → ∀ c k, 0 ≤ c → c < p46t.dims.ncells → 0 ≤ k →
        k < p46t.dims.nlayers → m'.real (.h_cell st) 0 c k ≠ 0)) ∧
    mN.real (.h_cell .state) 0 5 2 = some 6 ∧ mN.real (.vn_edge .state) 0 7 2 = some 49 := by
  obtain ⟨m, m1, hr, hx, he⟩ := exists_newRun p46t_run (1 / 4) prm (noHook_ofParams prm) false
    (.lsrk 1) [(0, 1)] ⟨fun c _ => 1 + c, fun e _ => e * e, fun l c k => (l + k) * (1 + c)⟩
  obtain ⟨mN, hrN, hxN, -⟩ := exists_ready p46t_run.toValid (some (1 / 4)) (Params.lift prm)
    ⟨fun c _ => some (1 + c), fun e _ => some (e * e), fun l c k => some ((l + k) * (1 + c))⟩
    zeroFld
  obtain ⟨hd, hcN⟩ := ready_ok p46t_run hrN
  obtain ⟨-, hc⟩ := ready_ok p46t_run hr
  obtain ⟨m0, r0, a0, -⟩ := ctor_runs p46t.dims (.lsrk 1) mN
  obtain ⟨m1N, r1, -⟩ := run_runs ((genSetup hd hcN (hookOK_noHook
    (lift_noHook (SWModel.ofParams prm)) p46t.dims mN)).static a0) (.lsrk 1) (liftSched [(0, 1)])
  refine ⟨mN, m1N, m, m1, hrN, hr, ?_, (Runs.append r0 (r1 false)).exec, he, ?_, ?_, ?_⟩
  · rw [hx, hxN]
    exact ⟨fun _ _ _ _ _ _ => rfl, fun _ _ _ _ _ _ => rfl, fun _ _ _ _ _ _ _ _ _ => rfl⟩
  · intro st m' hca
    obtain ⟨rfl, hs⟩ := callsAt_euler hca
    rw [hx] at hs
    have hh : ∀ c k, m'.real (.h_cell .state) 0 c k = 1 + (c : ℝ) := fun c k =>
      congrFun (congrFun (congrArg Fld.h hs) c) k
    refine ⟨fun v k v0 v1 k0 k1 => ?_, fun _ c k c0 c1 k0 k1 => ?_⟩
    · have hhex := (hr.hex p46t_run.toValid).1
      have := hhex.kitearea v v0 v1
      have hA : (0 : ℝ) < m.real .area_triangle 0 v 0 := by
        rw [hhex.area_triangle v v0 v1]
        show (0 : ℝ) < _ * _ * Real.sqrt ((3 : Int) : ℝ) / ((4 : Int) : ℝ)
        positivity
      simp only [hh]
      refine (div_pos (Finset.sum_pos (fun j hj => ?_) ⟨0, by simp⟩) hA).ne'
      have hj := Finset.mem_Ico.1 hj
      have hcov := (hc.mesh.cov v v0 v1 j hj.1 hj.2).1
      have hcov : (0 : ℝ) ≤ (m.int .cells_on_vertex v j : ℝ) := by exact_mod_cast hcov
      rw [this j hj.1 hj.2]
      refine mul_pos ?_ (by positivity)
      show (0 : ℝ) < _ * _ * Real.sqrt ((3 : Int) : ℝ) / ((12 : Int) : ℝ)
      positivity
    · rw [hh]
      have : (0 : ℝ) ≤ c := by exact_mod_cast c0
      positivity
  · exact (congrFun (congrFun (congrArg Fld.h hxN) 5) 2).trans (by norm_num)
  · exact (congrFun (congrFun (congrArg Fld.vn hxN) 7) 2).trans (by norm_num)

end Props
end
end Omega
