import Verif.Props.FourthOrderBounds
import Mathlib.Analysis.Convex.Approximation
import Mathlib.Analysis.Convex.Mul
import Mathlib.Analysis.SpecialFunctions.Log.NegMulLog

/-!
# C127: what prescribed flow and diffusion do to tracers is mixing

In the situation of C123 a step never increases the content of a convex function of the concentrations, keeps the order
of tracers and does not increase their distance.
-/

set_option linter.unusedVariables false
set_option linter.unusedSectionVars false

namespace Omega
noncomputable section
namespace Props

open Prog Model Refine Hex Polynomial

variable {p : MeshParams} {dc : ℝ} {m : Mem ℝ}

/-- The hypotheses of C123: a layer of prescribed flow without divergence of mass, with a cell Peclet number of at most
two and thicknesses between `hlo` and `hhi`, and steps that are short enough. -/
structure MixingFlow (p : MeshParams) (dc : ℝ) (prm : Params ℝ) (m : Mem ℝ) (k : Int) (V hlo hhi : ℝ) (stp : Stepper)
    (sched : List (ℝ × ℝ)) : Prop where
  frozen_h : prm.disable_h = true
  frozen_vn : prm.disable_vn = true
  no_hyper : prm.eddy_diff4 ≤ 0
  layer : 0 ≤ k ∧ k < p.dims.nlayers
  speed : ∀ e, 0 ≤ e → e < p.dims.nedges → |m.real (.vn_edge .state) 0 e k| ≤ V
  peclet : V * dc ≤ 2 * prm.eddy_diff2
  pos : 0 < hlo
  thickness : ∀ c, 0 ≤ c → c < p.dims.ncells →
    hlo ≤ m.real (.h_cell .state) 0 c k ∧ m.real (.h_cell .state) 0 c k ≤ hhi
  nondiv : ∀ c, 0 ≤ c → c < p.dims.ncells → Spec.div m (fun e => Spec.mean m
    (fun i => m.real (.h_cell .state) 0 i k) e * m.real (.vn_edge .state) 0 e k) c = 0
  steps : ∀ q ∈ sched, 0 ≤ q.2 ∧
    4 * q.2 * hhi * (prm.eddy_diff2 + V * dc / 2) ≤ boundSteps stp * (hlo * dc ^ 2)

/-- the steps of a run on a linear equation, as a linear map -/
def foldOp (L : Module.End ℝ (Int → ℝ)) (stp : Stepper) (S : List (ℝ × ℝ)) (f : Int → ℝ) : Int → ℝ :=
  S.foldl (fun f q => aeval (q.2 • L) (stabPoly stp) f) f

theorem foldOp_lin (L : Module.End ℝ (Int → ℝ)) (stp : Stepper) (S : List (ℝ × ℝ)) (a b : ℝ) (f g : Int → ℝ) :
    foldOp L stp S (a • f + b • g) = a • foldOp L stp S f + b • foldOp L stp S g := by
  unfold foldOp
  induction S generalizing f g with
  | nil => rfl
  | cons q S ih =>
    simp only [List.foldl_cons]
    rw [map_add, map_smul, map_smul, ih]

section

variable {prm : Params ℝ} {k : Int} {V hlo hhi dt : ℝ} {x u : Int → ℝ}

/-- what `flow_bounds` needs -/
structure OneStep (p : MeshParams) (dc : ℝ) (prm : Params ℝ) (m : Mem ℝ) (x u : Int → ℝ) (dt : ℝ) : Prop where
  keeps : ∀ {lo hi : ℝ} {s : Int → ℝ}, (∀ c, 0 ≤ c → c < p.dims.ncells → lo * x c ≤ s c ∧ s c ≤ hi * x c) →
    ∀ c, 0 ≤ c → c < p.dims.ncells → lo * x c ≤ s c + dt * trOp m (SWModel.ofParams prm) x u s c ∧
      s c + dt * trOp m (SWModel.ofParams prm) x u s c ≤ hi * x c
  xpos : ∃ δ : ℝ, 0 < δ ∧ ∀ c, 0 ≤ c → c < p.dims.ncells → δ ≤ x c

theorem OneStep.nonneg (H : OneStep p dc prm m x u dt) {s : Int → ℝ}
    (hs : ∀ c, 0 ≤ c → c < p.dims.ncells → 0 ≤ s c) {c : Int} (c0 : 0 ≤ c) (c1 : c < p.dims.ncells) :
    0 ≤ s c + dt * trOp m (SWModel.ofParams prm) x u s c := by
  obtain ⟨δ, δ0, hδ⟩ := H.xpos
  have hs' : ∀ i ∈ Spec.cells p.dims, 0 ≤ s i := fun i hi => hs i (Finset.mem_Ico.mp hi).1 (Finset.mem_Ico.mp hi).2
  have := (H.keeps (lo := 0) (hi := (∑ i ∈ Spec.cells p.dims, s i) / δ) (s := s) (fun i i0 i1 => ⟨by
    rw [zero_mul]; exact hs i i0 i1, by
    have a := Finset.single_le_sum hs' (Finset.mem_Ico.mpr ⟨i0, i1⟩ : i ∈ Spec.cells p.dims)
    refine a.trans ?_
    rw [div_mul_eq_mul_div, le_div_iff₀ δ0]
    exact mul_le_mul_of_nonneg_left (hδ i i0 i1) (Finset.sum_nonneg hs')⟩) c c0 c1).1
  linarith

theorem OneStep.convex (H : OneStep p dc prm m x u dt) {lo hi : ℝ} {φ : ℝ → ℝ} (hφ : ConvexOn ℝ (Set.Icc lo hi) φ)
    (hc : ContinuousOn φ (Set.Icc lo hi)) {s : Int → ℝ}
    (hs : ∀ c, 0 ≤ c → c < p.dims.ncells → lo * x c ≤ s c ∧ s c ≤ hi * x c) {c : Int} (c0 : 0 ≤ c)
    (c1 : c < p.dims.ncells) :
    x c * φ ((s c + dt * trOp m (SWModel.ofParams prm) x u s c) / x c) ≤
      x c * φ (s c / x c) + dt * trOp m (SWModel.ofParams prm) x u (fun i => x i * φ (s i / x i)) c := by
  set L := trOp m (SWModel.ofParams prm) x u with hL
  set F : Int → ℝ := fun i => x i * φ (s i / x i) with hF
  obtain ⟨δ, δ0, hδ⟩ := H.xpos
  have xp : ∀ i, 0 ≤ i → i < p.dims.ncells → 0 < x i := fun i i0 i1 => δ0.trans_le (hδ i i0 i1)
  have xc := xp c c0 c1
  have mem : ∀ {y z : ℝ}, 0 < z → lo * z ≤ y ∧ y ≤ hi * z → y / z ∈ Set.Icc lo hi := fun hz h =>
    ⟨by rw [le_div_iff₀ hz]; exact h.1, by rw [div_le_iff₀ hz]; exact h.2⟩
  by_contra hlt
  rw [not_le] at hlt
  set q' := (s c + dt * L s c) / x c with hq'
  have lt2 : (F c + dt * L F c) / x c < φ q' := by
    rw [div_lt_iff₀ xc, mul_comm (φ q')]; exact hlt
  obtain ⟨a, a1, a2⟩ := exists_between lt2
  obtain ⟨b, b', hb, hb'⟩ := hφ.exists_affine_le_of_lt_real (mem xc (H.keeps hs c c0 c1)) a2 isClosed_Icc
    hc.lowerSemicontinuousOn
  have hx1 := H.keeps (lo := 1) (hi := 1) (s := x) (fun i _ _ => by simp) c c0 c1
  have hx0 : dt * L x c = 0 := by linarith [hx1.1, hx1.2]
  have D := H.nonneg (s := F - (b • s + b' • x)) (fun i i0 i1 => by
    have := mul_le_mul_of_nonneg_left (hb _ (mem (xp i i0 i1) (hs i i0 i1))) (xp i i0 i1).le
    have e : x i * (b * (s i / x i) + b') = b * s i + b' * x i := by
      have := (xp i i0 i1).ne'
      field_simp
    rw [e] at this
    show 0 ≤ F i - (b * s i + b' * x i)
    linarith) c0 c1
  rw [← hL, map_sub, map_add, map_smul, map_smul] at D
  change 0 ≤ F c - (b * s c + b' * x c) + dt * (L F c - (b * L s c + b' * L x c)) at D
  have e : b * (s c + dt * L s c) + b' * x c = a * x c := by
    rw [← hb', ← hL]; field_simp
  rw [div_lt_iff₀ xc] at a1
  have : dt * (b' * L x c) = 0 := by rw [mul_left_comm, hx0, mul_zero]
  linarith [mul_left_comm dt b (L s c), mul_add dt (b * L s c) (b' * L x c),
    mul_sub dt (L F c) (b * L s c + b' * L x c)]

theorem OneStep.content (g : Geo2 p.nx p.ny p.dims.nlayers dc m.mesh) (H : OneStep p dc prm m x u dt) {lo hi : ℝ}
    {φ : ℝ → ℝ} (hφ : ConvexOn ℝ (Set.Icc lo hi) φ) (hc : ContinuousOn φ (Set.Icc lo hi)) {s : Int → ℝ}
    (hs : ∀ c, 0 ≤ c → c < p.dims.ncells → lo * x c ≤ s c ∧ s c ≤ hi * x c) :
    ∑ c ∈ Spec.cells p.dims, Spec.areaC m c *
      (x c * φ ((s c + dt * trOp m (SWModel.ofParams prm) x u s c) / x c)) ≤
      ∑ c ∈ Spec.cells p.dims, Spec.areaC m c * (x c * φ (s c / x c)) := by
  have hdc := g.dc_pos
  calc _ ≤ ∑ c ∈ Spec.cells p.dims, Spec.areaC m c * (x c * φ (s c / x c) +
        dt * trOp m (SWModel.ofParams prm) x u (fun i => x i * φ (s i / x i)) c) :=
        Finset.sum_le_sum fun c hc' => by
          have c2 := Finset.mem_Ico.mp hc'
          refine mul_le_mul_of_nonneg_left (H.convex hφ hc hs c2.1 c2.2) ?_
          rw [spec_areaC g.toGeo (mem_cells.mp hc')]; positivity
    _ = _ := by
        have := sum_tracer g (SWModel.ofParams prm) x u (fun i => x i * φ (s i / x i))
        simp only [mul_add, Finset.sum_add_distrib, mul_left_comm _ dt, ← Finset.mul_sum]
        rw [show ∑ i ∈ Spec.cells p.dims, Spec.areaC m i *
          trOp m (SWModel.ofParams prm) x u (fun i => x i * φ (s i / x i)) i = 0 from this, mul_zero, add_zero]

end

section

variable {prm : Params ℝ} {k : Int} {V hlo hhi : ℝ} {stp : Stepper} {sched : List (ℝ × ℝ)}

theorem boundSteps_pos (stp : Stepper) : 0 < boundSteps stp := by
  cases stp with
  | rk4 => simp [boundSteps]
  | lsrk n => simp only [boundSteps]; split_ifs <;> norm_num

/-- A run keeps every convex set that its one-stage steps keep. -/
theorem MixingFlow.keeps (F : MixingFlow p dc prm m k V hlo hhi stp sched) (g : Geo2 p.nx p.ny p.dims.nlayers dc m.mesh)
    (hcn : ConnOK p.dims m) {K : Set (Int → ℝ)} (hK : Convex ℝ K)
    (hs : ∀ dt, OneStep p dc prm m (fun i => m.real (.h_cell .state) 0 i k) (fun i => m.real (.vn_edge .state) 0 i k) dt →
      ∀ f ∈ K, f + dt • trOp m (SWModel.ofParams prm) (fun i => m.real (.h_cell .state) 0 i k)
        (fun i => m.real (.vn_edge .state) 0 i k) f ∈ K) {f : Int → ℝ} (hf : f ∈ K) :
    foldOp (trOp m (SWModel.ofParams prm) (fun i => m.real (.h_cell .state) 0 i k)
      (fun i => m.real (.vn_edge .state) 0 i k)) stp sched f ∈ K := by
  have rp := boundSteps_pos stp
  have st := F.steps
  set L := trOp m (SWModel.ofParams prm) (fun i => m.real (.h_cell .state) 0 i k)
    (fun i => m.real (.vn_edge .state) 0 i k) with hL
  unfold foldOp
  clear_value L
  have one : ∀ q ∈ sched, OneStep p dc prm m (fun i => m.real (.h_cell .state) 0 i k)
      (fun i => m.real (.vn_edge .state) 0 i k) (q.2 / boundSteps stp) := fun q hq => by
    obtain ⟨a0, a1⟩ := st q hq
    refine ⟨fun {lo hi s} h c c0 c1 => ?_, hlo, F.pos, fun c c0 c1 => (F.thickness c c0 c1).1⟩
    refine flow_bounds g hcn F.no_hyper F.layer.1 F.layer.2 F.speed F.peclet F.pos F.thickness F.nondiv
      (div_nonneg a0 rp.le) ?_ h c0 c1
    rw [show 4 * (q.2 / boundSteps stp) * hhi * (prm.eddy_diff2 + V * dc / 2) =
      4 * q.2 * hhi * (prm.eddy_diff2 + V * dc / 2) / boundSteps stp by ring, div_le_iff₀ rp]
    linarith
  clear st F
  induction sched generalizing f with
  | nil => exact hf
  | cons q S ih =>
    refine ih ?_ fun q' hq' => one q' (List.mem_cons_of_mem _ hq')
    have e : q.2 • L = boundSteps stp • ((q.2 / boundSteps stp) • L) := by
      rw [smul_smul, mul_div_cancel₀ _ rp.ne']
    beta_reduce
    rw [e]
    exact stab_keeps stp hK (fun f hf => hs _ (one q List.mem_cons_self) f hf) hf

/-- The content of any convex function of the concentration does not increase: of one tracer, of the difference of two,
or of any other combination, in any run of any stepper. -/
theorem C127_convex (hv : RunValid p) (hx : 2 ≤ p.nx) (hy : 2 ≤ p.ny) (hdc : 0 < dc) (hr : Ready p dc prm m)
    (F : MixingFlow p dc prm m k V hlo hhi stp sched) {split : Bool} {m1 : Mem ℝ}
    (he : Exec p.dims (stp.ctor p.dims ++ stp.run p.dims ⟨defaultKernels p.dims.vl, split⟩
      (SWModel.ofParams prm) sched) m m1) {l l' : Int} (hl : 0 ≤ l ∧ l < p.dims.ntracers)
    (hl' : 0 ≤ l' ∧ l' < p.dims.ntracers) (a b : ℝ) {lo hi : ℝ} {φ : ℝ → ℝ} (hφ : ConvexOn ℝ (Set.Icc lo hi) φ)
    (hφc : ContinuousOn φ (Set.Icc lo hi))
    (hq : ∀ c, 0 ≤ c → c < p.dims.ncells →
      lo * m.real (.h_cell .state) 0 c k ≤ a * m.real (.tr_cell .state) l c k + b * m.real (.tr_cell .state) l' c k ∧
      a * m.real (.tr_cell .state) l c k + b * m.real (.tr_cell .state) l' c k ≤ hi * m.real (.h_cell .state) 0 c k) :
    ∑ c ∈ Spec.cells p.dims, Spec.areaC m1 c * (m1.real (.h_cell .state) 0 c k *
      φ ((a * m1.real (.tr_cell .state) l c k + b * m1.real (.tr_cell .state) l' c k) /
        m1.real (.h_cell .state) 0 c k)) ≤
    ∑ c ∈ Spec.cells p.dims, Spec.areaC m c * (m.real (.h_cell .state) 0 c k *
      φ ((a * m.real (.tr_cell .state) l c k + b * m.real (.tr_cell .state) l' c k) /
        m.real (.h_cell .state) 0 c k)) := by
  obtain ⟨hd, hcn⟩ := ready_ok hv hr
  have g := Ready.geo2 hr hv.toValid hx hy hdc
  obtain ⟨r1, -, r3⟩ := frozen_exec (sw := SWModel.ofParams prm) F.frozen_h F.frozen_vn hd hcn (noHook_ofParams prm) he
  have hst := ((genSetup hd hcn (hookOK_noHook (noHook_ofParams prm) p.dims m)).newRun he).1
  set x := fun i => m.real (.h_cell .state) 0 i k with hxd
  set u := fun i => m.real (.vn_edge .state) 0 i k with hud
  have xp : ∀ c, 0 ≤ c → c < p.dims.ncells → 0 < x c := fun c c0 c1 => F.pos.trans_le (F.thickness c c0 c1).1
  set A := ∑ c ∈ Spec.cells p.dims, Spec.areaC m c * (m.real (.h_cell .state) 0 c k *
      φ ((a * m.real (.tr_cell .state) l c k + b * m.real (.tr_cell .state) l' c k) /
        m.real (.h_cell .state) 0 c k)) with hA
  let K : Set (Int → ℝ) := {f | (∀ c, 0 ≤ c → c < p.dims.ncells → lo * x c ≤ f c ∧ f c ≤ hi * x c) ∧
    ∑ c ∈ Spec.cells p.dims, Spec.areaC m c * (x c * φ (f c / x c)) ≤ A}
  have mem : ∀ {y z : ℝ}, 0 < z → lo * z ≤ y ∧ y ≤ hi * z → y / z ∈ Set.Icc lo hi := fun hz h =>
    ⟨by rw [le_div_iff₀ hz]; exact h.1, by rw [div_le_iff₀ hz]; exact h.2⟩
  have hK : Convex ℝ K := by
    intro f hf f' hf' α β α0 β0 αβ
    refine ⟨fun c c0 c1 => ?_, ?_⟩
    · have h1 := hf.1 c c0 c1
      have h2 := hf'.1 c c0 c1
      show lo * x c ≤ α * f c + β * f' c ∧ α * f c + β * f' c ≤ hi * x c
      obtain rfl : β = 1 - α := by linarith
      constructor <;> nlinarith
    · calc _ ≤ ∑ c ∈ Spec.cells p.dims, (α * (Spec.areaC m c * (x c * φ (f c / x c))) +
            β * (Spec.areaC m c * (x c * φ (f' c / x c)))) := Finset.sum_le_sum fun c hc => by
              have c2 := Finset.mem_Ico.mp hc
              have := hφ.2 (mem (xp c c2.1 c2.2) (hf.1 c c2.1 c2.2)) (mem (xp c c2.1 c2.2) (hf'.1 c c2.1 c2.2))
                α0 β0 αβ
              simp only [smul_eq_mul] at this
              have ar : 0 ≤ Spec.areaC m c * x c := by
                rw [spec_areaC g.toGeo (mem_cells.mp hc)]
                exact mul_nonneg (by positivity) (xp c c2.1 c2.2).le
              have e : (α • f + β • f') c / x c = α * (f c / x c) + β * (f' c / x c) := by
                simp only [Pi.add_apply, Pi.smul_apply, smul_eq_mul]; ring
              rw [e, ← mul_assoc]
              refine (mul_le_mul_of_nonneg_left this ar).trans (le_of_eq ?_)
              ring
        _ ≤ α * A + β * A := by
              rw [Finset.sum_add_distrib, ← Finset.mul_sum, ← Finset.mul_sum]
              exact add_le_add (mul_le_mul_of_nonneg_left hf.2 α0) (mul_le_mul_of_nonneg_left hf'.2 β0)
        _ = A := by rw [← add_mul, αβ, one_mul]
  have key := F.keeps g hcn hK (fun dt H f hf => ⟨fun c c0 c1 => H.keeps hf.1 c c0 c1,
    (H.content g hφ hφc hf.1).trans hf.2⟩)
    (f := a • (fun c => m.real (.tr_cell .state) l c k) + b • fun c => m.real (.tr_cell .state) l' c k)
    ⟨hq, le_of_eq hA.symm⟩
  rw [foldOp_lin] at key
  refine le_trans (le_of_eq (Finset.sum_congr rfl fun c hc => ?_)) key.2
  have c2 := Finset.mem_Ico.mp hc
  rw [area_static hst, r1 c k c2.1 c2.2 F.layer.1 F.layer.2, r3 l c k hl.1 hl.2 c2.1 c2.2 F.layer.1 F.layer.2,
    r3 l' c k hl'.1 hl'.2 c2.1 c2.2 F.layer.1 F.layer.2]
  rfl

/-- Tracers that are ordered stay ordered. -/
theorem C127_order (hv : RunValid p) (hx : 2 ≤ p.nx) (hy : 2 ≤ p.ny) (hdc : 0 < dc) (hr : Ready p dc prm m)
    (F : MixingFlow p dc prm m k V hlo hhi stp sched) {split : Bool} {m1 : Mem ℝ}
    (he : Exec p.dims (stp.ctor p.dims ++ stp.run p.dims ⟨defaultKernels p.dims.vl, split⟩
      (SWModel.ofParams prm) sched) m m1) {l l' : Int} (hl : 0 ≤ l ∧ l < p.dims.ntracers)
    (hl' : 0 ≤ l' ∧ l' < p.dims.ntracers)
    (h0 : ∀ c, 0 ≤ c → c < p.dims.ncells → m.real (.tr_cell .state) l c k ≤ m.real (.tr_cell .state) l' c k) :
    ∀ c, 0 ≤ c → c < p.dims.ncells → m1.real (.tr_cell .state) l c k ≤ m1.real (.tr_cell .state) l' c k := by
  obtain ⟨hd, hcn⟩ := ready_ok hv hr
  have g := Ready.geo2 hr hv.toValid hx hy hdc
  obtain ⟨-, -, r3⟩ := frozen_exec (sw := SWModel.ofParams prm) F.frozen_h F.frozen_vn hd hcn (noHook_ofParams prm) he
  let K : Set (Int → ℝ) := {f | ∀ c, 0 ≤ c → c < p.dims.ncells → 0 ≤ f c}
  have hK : Convex ℝ K := fun f hf f' hf' α β α0 β0 _ c c0 c1 =>
    add_nonneg (mul_nonneg α0 (hf c c0 c1)) (mul_nonneg β0 (hf' c c0 c1))
  have key := F.keeps g hcn hK (fun dt H f hf c c0 c1 => H.nonneg hf c0 c1)
    (f := (1 : ℝ) • (fun c => m.real (.tr_cell .state) l' c k) + (-1 : ℝ) • fun c => m.real (.tr_cell .state) l c k)
    (fun c c0 c1 => by
      have := h0 c c0 c1
      simp only [Pi.add_apply, Pi.smul_apply, smul_eq_mul]; linarith)
  rw [foldOp_lin] at key
  intro c c0 c1
  have := key c c0 c1
  simp only [Pi.add_apply, Pi.smul_apply, smul_eq_mul] at this
  rw [r3 l c k hl.1 hl.2 c0 c1 F.layer.1 F.layer.2, r3 l' c k hl'.1 hl'.2 c0 c1 F.layer.1 F.layer.2]
  unfold foldOp at this
  linarith

/-- The total difference of two tracers does not increase. -/
theorem C127_distance (hv : RunValid p) (hx : 2 ≤ p.nx) (hy : 2 ≤ p.ny) (hdc : 0 < dc) (hr : Ready p dc prm m)
    (F : MixingFlow p dc prm m k V hlo hhi stp sched) {split : Bool} {m1 : Mem ℝ}
    (he : Exec p.dims (stp.ctor p.dims ++ stp.run p.dims ⟨defaultKernels p.dims.vl, split⟩
      (SWModel.ofParams prm) sched) m m1) {l l' : Int} (hl : 0 ≤ l ∧ l < p.dims.ntracers)
    (hl' : 0 ≤ l' ∧ l' < p.dims.ntracers) :
    ∑ c ∈ Spec.cells p.dims, Spec.areaC m1 c *
      |m1.real (.tr_cell .state) l c k - m1.real (.tr_cell .state) l' c k| ≤
    ∑ c ∈ Spec.cells p.dims, Spec.areaC m c *
      |m.real (.tr_cell .state) l c k - m.real (.tr_cell .state) l' c k| := by
  obtain ⟨hd, hcn⟩ := ready_ok hv hr
  obtain ⟨r1, -, -⟩ := frozen_exec (sw := SWModel.ofParams prm) F.frozen_h F.frozen_vn hd hcn (noHook_ofParams prm) he
  set D := ∑ i ∈ Spec.cells p.dims, |m.real (.tr_cell .state) l i k - m.real (.tr_cell .state) l' i k| with hD
  have D0 : 0 ≤ D := Finset.sum_nonneg fun _ _ => abs_nonneg _
  have key := C127_convex hv hx hy hdc hr F he hl hl' 1 (-1) (lo := -(D / hlo)) (hi := D / hlo) (φ := fun z => |z|)
    ((convexOn_univ_norm (E := ℝ)).subset (Set.subset_univ _) (convex_Icc _ _)) continuous_abs.continuousOn
    (fun c c0 c1 => by
      have d := Finset.single_le_sum (f := fun i => |m.real (.tr_cell .state) l i k - m.real (.tr_cell .state) l' i k|)
        (fun _ _ => abs_nonneg _) (Finset.mem_Ico.mpr ⟨c0, c1⟩ : c ∈ Spec.cells p.dims)
      have h := (F.thickness c c0 c1).1
      have : D ≤ D / hlo * m.real (.h_cell .state) 0 c k := by
        rw [div_mul_eq_mul_div, le_div_iff₀ F.pos]
        exact mul_le_mul_of_nonneg_left h D0
      have := abs_le.1 (d.trans this)
      constructor <;> linarith [this.1, this.2])
  have e : ∀ {h T T' : ℝ}, 0 < h → h * |(1 * T + -1 * T') / h| = |T - T'| := fun {h T T'} hp => by
    rw [abs_div, abs_of_pos hp, mul_div_cancel₀ _ hp.ne']
    congr 1; ring
  have pos : ∀ c ∈ Spec.cells p.dims, 0 < m.real (.h_cell .state) 0 c k := fun c hc =>
    F.pos.trans_le (F.thickness c (Finset.mem_Ico.mp hc).1 (Finset.mem_Ico.mp hc).2).1
  refine le_of_eq_of_le (Finset.sum_congr rfl fun c hc => ?_) (key.trans_eq (Finset.sum_congr rfl fun c hc => ?_))
  · have c2 := Finset.mem_Ico.mp hc
    rw [e (by rw [r1 c k c2.1 c2.2 F.layer.1 F.layer.2]; exact pos c hc)]
  · rw [e (pos c hc)]

end

/-- Entropy in a uniform flow at the Peclet limit, for every stepper. -/
example (f0 g : ℝ) (stp : Stepper) (split : Bool) : ∃ m m1 : Mem ℝ,
    Ready p46t 1 ⟨f0, g, 0, 0, 1, 0, true, true⟩ m ∧
    MixingFlow p46t 1 ⟨f0, g, 0, 0, 1, 0, true, true⟩ m 0 2 1 1 stp [(0, 1 / 8), (1, 1 / 10), (2, 1 / 8)] ∧
    (∀ c, m.real (.tr_cell .state) 0 c 0 = if c = 3 then 2 else 0) ∧
    Exec p46t.dims (stp.ctor p46t.dims ++ stp.run p46t.dims
      ⟨defaultKernels p46t.dims.vl, split⟩ (SWModel.ofParams ⟨f0, g, 0, 0, 1, 0, true, true⟩)
      [(0, 1 / 8), (1, 1 / 10), (2, 1 / 8)]) m m1 ∧
    ∑ c ∈ Spec.cells p46t.dims, Spec.areaC m1 c * (m1.real (.h_cell .state) 0 c 0 *
      (fun z => z * Real.log z) ((1 * m1.real (.tr_cell .state) 0 c 0 + 0 * m1.real (.tr_cell .state) 0 c 0) /
        m1.real (.h_cell .state) 0 c 0)) ≤
    ∑ c ∈ Spec.cells p46t.dims, Spec.areaC m c * (m.real (.h_cell .state) 0 c 0 *
      (fun z => z * Real.log z) ((1 * m.real (.tr_cell .state) 0 c 0 + 0 * m.real (.tr_cell .state) 0 c 0) /
        m.real (.h_cell .state) 0 c 0)) := by
  obtain ⟨m, hr, hx, -⟩ := exists_ready p46t_run.toValid (1 : ℝ) ⟨f0, g, 0, 0, 1, 0, true, true⟩
    ⟨fun _ _ => 1, fun _ _ => 2, fun _ c _ => if c = 3 then 2 else 0⟩ zeroFld
  have H : ∀ c k, m.real (.h_cell .state) 0 c k = 1 := fun c k => congrFun (congrFun (congrArg Fld.h hx) c) k
  have U : ∀ c k, m.real (.vn_edge .state) 0 c k = 2 := fun c k => congrFun (congrFun (congrArg Fld.vn hx) c) k
  have T : ∀ c k, m.real (.tr_cell .state) 0 c k = if c = 3 then 2 else 0 := fun c k =>
    congrFun (congrFun (congrFun (congrArg Fld.tr hx) 0) c) k
  have gg := Ready.geo2 hr p46t_run.toValid (by decide) (by decide) one_pos
  have b1 : 1 ≤ boundSteps stp := by
    cases stp with
    | rk4 => simp [boundSteps]
    | lsrk n => simp only [boundSteps]; split_ifs <;> norm_num
  obtain ⟨m1, he⟩ := run_exists p46t_run hr stp [(0, 1 / 8), (1, 1 / 10), (2, 1 / 8)] split
  have F : MixingFlow p46t 1 ⟨f0, g, 0, 0, 1, 0, true, true⟩ m 0 2 1 1 stp [(0, 1 / 8), (1, 1 / 10), (2, 1 / 8)] := by
    refine ⟨rfl, rfl, le_rfl, ⟨le_rfl, p46t_layers⟩, fun e _ _ => by rw [U]; norm_num, by norm_num, one_pos,
      fun c _ _ => by rw [H]; exact ⟨le_rfl, le_rfl⟩, fun c c0 c1 => ?_, fun q hq => ?_⟩
    · rw [show (fun e => Spec.mean m (fun i => m.real (.h_cell .state) 0 i 0) e * m.real (.vn_edge .state) 0 e 0) =
        fun _ => 2 from funext fun e => by simp only [Spec.mean, H, U]; norm_num, spec_div gg _ ⟨c0, c1⟩, Dv_sum]
      simp [Finset.sum_range_succ, outSg]
    · simp only [List.mem_cons, List.not_mem_nil, or_false] at hq
      rcases hq with rfl | rfl | rfl <;> norm_num <;> linarith
  refine ⟨m, m1, hr, F, fun c => T c 0, he, ?_⟩
  refine C127_convex p46t_run (by decide) (by decide) one_pos hr F he ⟨le_rfl, by decide⟩ ⟨le_rfl, by decide⟩ 1 0
    (lo := 0) (hi := 2) (Real.convexOn_mul_log.subset Set.Icc_subset_Ici_self (convex_Icc _ _))
    Real.continuous_mul_log.continuousOn fun c _ _ => ?_
  rw [H, T]
  split_ifs <;> norm_num

/-! ### The full model -/

/-- the same memory with other tracers -/
def withTracer (m : Mem ℝ) (s : Int → ℝ) : Mem ℝ where
  int := m.int
  real a l i j := match a with
    | .tr_cell .state => s i
    | a => m.real a l i j

theorem withTracer_static (m : Mem ℝ) (s : Int → ℝ) : Static (withTracer m s) m := by
  refine ⟨rfl, fun b hb => ?_⟩
  cases b <;> first | rfl | simp [isDyn, isState] at hb

/-- One-stage steps of the full model, in which thickness and velocity change too.  At a cell Peclet number of at most
two and with steps within the limit of C92, as long as the layer is wet after the step, the content of any convex
function of the concentrations does not increase. -/
theorem C127_full_model (hv : RunValid p) (hx : 2 ≤ p.nx) (hy : 2 ≤ p.ny) (hdc : 0 < dc)
    {prm : Params ℝ} (hr : Ready p dc prm m) (hh : prm.disable_h = false) (h4 : prm.eddy_diff4 ≤ 0)
    {k : Int} (k0 : 0 ≤ k) (k1 : k < p.dims.nlayers) {V hlo hhi t dt : ℝ}
    (hu : ∀ e, 0 ≤ e → e < p.dims.nedges → |m.real (.vn_edge .state) 0 e k| ≤ V)
    (hP : V * dc ≤ 2 * prm.eddy_diff2) (hl : 0 < hlo)
    (hb : ∀ c, 0 ≤ c → c < p.dims.ncells →
      hlo ≤ m.real (.h_cell .state) 0 c k ∧ m.real (.h_cell .state) 0 c k ≤ hhi)
    (hdt : 0 ≤ dt) (hcfl : 4 * dt * hhi * (prm.eddy_diff2 + V * dc / 2) ≤ hlo * dc ^ 2) {split : Bool}
    {m1 : Mem ℝ} (he : Exec p.dims ((Stepper.lsrk 1).ctor p.dims ++ (Stepper.lsrk 1).run p.dims
      ⟨defaultKernels p.dims.vl, split⟩ (SWModel.ofParams prm) [(t, dt)]) m m1)
    (hwet : ∀ c, 0 ≤ c → c < p.dims.ncells → 0 < m1.real (.h_cell .state) 0 c k)
    {l : Int} (l0 : 0 ≤ l) (l1 : l < p.dims.ntracers) {lo hi : ℝ} {φ : ℝ → ℝ} (hφ : ConvexOn ℝ (Set.Icc lo hi) φ)
    (hφc : ContinuousOn φ (Set.Icc lo hi))
    (hq : ∀ c, 0 ≤ c → c < p.dims.ncells →
      lo * m.real (.h_cell .state) 0 c k ≤ m.real (.tr_cell .state) l c k ∧
        m.real (.tr_cell .state) l c k ≤ hi * m.real (.h_cell .state) 0 c k) :
    ∑ c ∈ Spec.cells p.dims, Spec.areaC m1 c * (m1.real (.h_cell .state) 0 c k *
      φ (m1.real (.tr_cell .state) l c k / m1.real (.h_cell .state) 0 c k)) ≤
    ∑ c ∈ Spec.cells p.dims, Spec.areaC m c * (m.real (.h_cell .state) 0 c k *
      φ (m.real (.tr_cell .state) l c k / m.real (.h_cell .state) 0 c k)) := by
  obtain ⟨hd, hcn⟩ := ready_ok hv hr
  have g := Ready.geo2 hr hv.toValid hx hy hdc
  have hst := ((genSetup hd hcn (hookOK_noHook (noHook_ofParams prm) p.dims m)).newRun he).1
  set x := fun i => m.real (.h_cell .state) 0 i k with hxd
  set u := fun i => m.real (.vn_edge .state) 0 i k with hud
  set s := fun i => m.real (.tr_cell .state) l i k with hsd
  set y := fun i => m1.real (.h_cell .state) 0 i k with hyd
  set L := trOp m (SWModel.ofParams prm) x u with hL
  have xp : ∀ c, 0 ≤ c → c < p.dims.ncells → 0 < x c := fun c c0 c1 => hl.trans_le (hb c c0 c1).1
  -- what the step does to any tracer
  have keeps : ∀ {lo hi : ℝ} {s : Int → ℝ}, (∀ c, 0 ≤ c → c < p.dims.ncells → lo * x c ≤ s c ∧ s c ≤ hi * x c) →
      ∀ c, 0 ≤ c → c < p.dims.ncells → lo * y c ≤ s c + dt * L s c ∧ s c + dt * L s c ≤ hi * y c := by
    intro lo hi s hs c c0 c1
    have hr' := hr.static (withTracer_static m s)
    obtain ⟨m2, he2⟩ := run_exists hv hr' (.lsrk 1) [(t, dt)] split
    have b := (C92_tracer_bounds hv hx hy hdc hr' hh h4 k0 k1 hu hP hl hb hdt hcfl he2 l0 l1 hs c c0 c1).2
    obtain ⟨v1, v2⟩ := euler_val hv hr' he2 k0 k1 (c := c) ⟨c0, c1⟩
    have w1 := (euler_val hv hr he k0 k1 (c := c) ⟨c0, c1⟩).1
    rw [v2 l l0 l1, v1.trans w1.symm] at b
    exact b
  have nonneg : ∀ {s : Int → ℝ}, (∀ c, 0 ≤ c → c < p.dims.ncells → 0 ≤ s c) → ∀ c, 0 ≤ c → c < p.dims.ncells →
      0 ≤ s c + dt * L s c := by
    intro s hs c c0 c1
    have hs' : ∀ i ∈ Spec.cells p.dims, 0 ≤ s i := fun i hi => hs i (Finset.mem_Ico.mp hi).1 (Finset.mem_Ico.mp hi).2
    have := (keeps (lo := 0) (hi := (∑ i ∈ Spec.cells p.dims, s i) / hlo) (s := s) (fun i i0 i1 => ⟨by
      rw [zero_mul]; exact hs i i0 i1, by
      have a := Finset.single_le_sum hs' (Finset.mem_Ico.mpr ⟨i0, i1⟩ : i ∈ Spec.cells p.dims)
      refine a.trans ?_
      rw [div_mul_eq_mul_div, le_div_iff₀ hl]
      exact mul_le_mul_of_nonneg_left (hb i i0 i1).1 (Finset.sum_nonneg hs')⟩) c c0 c1).1
    linarith
  have mem : ∀ {y z : ℝ}, 0 < z → lo * z ≤ y ∧ y ≤ hi * z → y / z ∈ Set.Icc lo hi := fun hz h =>
    ⟨by rw [le_div_iff₀ hz]; exact h.1, by rw [div_le_iff₀ hz]; exact h.2⟩
  set F : Int → ℝ := fun i => x i * φ (s i / x i) with hF
  have jensen : ∀ c, 0 ≤ c → c < p.dims.ncells → y c * φ ((s c + dt * L s c) / y c) ≤ F c + dt * L F c := by
    intro c c0 c1
    have yc : 0 < y c := hwet c c0 c1
    by_contra hlt
    rw [not_le] at hlt
    have lt2 : (F c + dt * L F c) / y c < φ ((s c + dt * L s c) / y c) := by
      rw [div_lt_iff₀ yc, mul_comm (φ _)]; exact hlt
    obtain ⟨a, a1, a2⟩ := exists_between lt2
    obtain ⟨b, b', hb1, hb2⟩ := hφ.exists_affine_le_of_lt_real (mem yc (keeps hq c c0 c1)) a2 isClosed_Icc
      hφc.lowerSemicontinuousOn
    have hx1 := keeps (lo := 1) (hi := 1) (s := x) (fun i _ _ => by simp) c c0 c1
    have hx0 : x c + dt * L x c = y c := by linarith [hx1.1, hx1.2]
    have D := nonneg (s := F - (b • s + b' • x)) (fun i i0 i1 => by
      have := mul_le_mul_of_nonneg_left (hb1 _ (mem (xp i i0 i1) (hq i i0 i1))) (xp i i0 i1).le
      have e : x i * (b * (s i / x i) + b') = b * s i + b' * x i := by
        have := (xp i i0 i1).ne'
        field_simp
      rw [e] at this
      show 0 ≤ F i - (b * s i + b' * x i)
      linarith) c c0 c1
    rw [map_sub, map_add, map_smul, map_smul] at D
    change 0 ≤ F c - (b * s c + b' * x c) + dt * (L F c - (b * L s c + b' * L x c)) at D
    have e : b * (s c + dt * L s c) + b' * y c = a * y c := by
      rw [← hb2]
      change _ = (b * ((s c + dt * L s c) / y c) + b') * y c
      field_simp
    rw [div_lt_iff₀ yc] at a1
    have : b' * (x c + dt * L x c) = b' * y c := by rw [hx0]
    linarith [mul_left_comm dt b (L s c), mul_left_comm dt b' (L x c), mul_add dt (b * L s c) (b' * L x c),
      mul_sub dt (L F c) (b * L s c + b' * L x c)]
  calc _ ≤ ∑ c ∈ Spec.cells p.dims, Spec.areaC m c * (F c + dt * L F c) :=
        Finset.sum_le_sum fun c hc' => by
          have c2 := Finset.mem_Ico.mp hc'
          have := jensen c c2.1 c2.2
          rw [area_static hst, (euler_val hv hr he k0 k1 (c := c) ⟨c2.1, c2.2⟩).2 l l0 l1]
          refine mul_le_mul_of_nonneg_left this ?_
          rw [spec_areaC g.toGeo (mem_cells.mp hc')]; positivity
    _ = _ := by
        have := sum_tracer g (SWModel.ofParams prm) x u F
        simp only [mul_add, Finset.sum_add_distrib, mul_left_comm _ dt, ← Finset.mul_sum]
        rw [show ∑ i ∈ Spec.cells p.dims, Spec.areaC m i * L F i = 0 from this, mul_zero, add_zero]

/-- The variance in a step of the full model, with a converging flow. -/
example (f0 g : ℝ) (split : Bool) : ∃ m m1 : Mem ℝ, Ready p46t 1 ⟨f0, g, 0, 0, 1, 0, false, false⟩ m ∧
    (∀ e, m.real (.vn_edge .state) 0 e 0 = if e = 4 then -1 else 1) ∧
    (∀ c, m.real (.tr_cell .state) 0 c 0 = if c = 3 then 2 else 1) ∧
    Exec p46t.dims ((Stepper.lsrk 1).ctor p46t.dims ++ (Stepper.lsrk 1).run p46t.dims
      ⟨defaultKernels p46t.dims.vl, split⟩ (SWModel.ofParams ⟨f0, g, 0, 0, 1, 0, false, false⟩)
      [(0, 1 / 20)]) m m1 ∧
    (∀ c, 0 ≤ c → c < p46t.dims.ncells → 0 < m1.real (.h_cell .state) 0 c 0) ∧
    ∑ c ∈ Spec.cells p46t.dims, Spec.areaC m1 c * (m1.real (.h_cell .state) 0 c 0 *
      (m1.real (.tr_cell .state) 0 c 0 / m1.real (.h_cell .state) 0 c 0) ^ 2) ≤
    ∑ c ∈ Spec.cells p46t.dims, Spec.areaC m c * (m.real (.h_cell .state) 0 c 0 *
      (m.real (.tr_cell .state) 0 c 0 / m.real (.h_cell .state) 0 c 0) ^ 2) := by
  obtain ⟨m, hr, hx, -⟩ := exists_ready p46t_run.toValid (1 : ℝ) ⟨f0, g, 0, 0, 1, 0, false, false⟩
    ⟨fun _ _ => 1, fun e _ => if e = 4 then -1 else 1, fun _ c _ => if c = 3 then 2 else 1⟩ zeroFld
  have H : ∀ c k, m.real (.h_cell .state) 0 c k = 1 := fun c k => congrFun (congrFun (congrArg Fld.h hx) c) k
  have U : ∀ c k, m.real (.vn_edge .state) 0 c k = if c = 4 then -1 else 1 := fun c k =>
    congrFun (congrFun (congrArg Fld.vn hx) c) k
  have T : ∀ c k, m.real (.tr_cell .state) 0 c k = if c = 3 then 2 else 1 := fun c k =>
    congrFun (congrFun (congrFun (congrArg Fld.tr hx) 0) c) k
  obtain ⟨m1, he⟩ := run_exists p46t_run hr (.lsrk 1) [(0, 1 / 20)] split
  have W : ∀ c, 0 ≤ c → c < p46t.dims.ncells → 0 < m1.real (.h_cell .state) 0 c 0 := fun c c0 c1 => by
    have := (C93_stays_wet p46t_run (by decide) (by decide) one_pos hr le_rfl p46t_layers (V := 1) (hlo := 1)
      (hhi := 1) (fun e _ _ => by rw [U]; split_ifs <;> norm_num) one_pos
      (fun c _ _ => by rw [H]; exact ⟨le_rfl, le_rfl⟩) (r := 2 / 5)
      (by rw [abs_of_pos (by norm_num)]; norm_num) he c c0 c1).1
    linarith
  refine ⟨m, m1, hr, fun e => U e 0, fun c => T c 0, he, W, ?_⟩
  refine C127_full_model p46t_run (by decide) (by decide) one_pos hr rfl le_rfl le_rfl p46t_layers (V := 1)
    (hlo := 1) (hhi := 1) (fun e _ _ => by rw [U]; split_ifs <;> norm_num) (by norm_num) one_pos
    (fun c _ _ => by rw [H]; exact ⟨le_rfl, le_rfl⟩) (by norm_num) (by norm_num) he W le_rfl (by decide)
    (lo := 0) (hi := 2) (φ := fun z => z ^ 2) ((convexOn_pow 2).subset Set.Icc_subset_Ici_self (convex_Icc _ _))
    (continuous_pow 2).continuousOn fun c _ _ => ?_
  rw [H, T]
  split_ifs <;> norm_num

end Props
end
end Omega
