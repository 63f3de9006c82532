import Verif.Props.TimeOrder
import Verif.Props.Positivity

/-!
# C93 for the fourth-order steppers

No step size is small enough to keep every wet layer wet.
-/

set_option linter.unusedVariables false
set_option linter.unusedSectionVars false

namespace Omega
noncomputable section
namespace Props

open Prog Model Refine Hex Set Filter Topology

variable {p : MeshParams} {dc : ℝ} {m : Mem ℝ}

/-- a state without its tracers -/
def dropTr (x : Fld ℝ) : Fld ℝ := ⟨x.h, x.vn, fun _ _ _ => 0⟩

theorem dropTr_comb (y : Fld ℝ) (w : ℕ → ℝ) (k : ℕ → Fld ℝ) (n : ℕ) :
    dropTr (comb y w k n) = comb (dropTr y) w (fun j => dropTr (k j)) n := by
  simp [dropTr, comb]

/-- the tendency of thickness and velocity as a vector field -/
def dryField (d : Dims) (m : Mem ℝ) (sw : SWModel ℝ) (v : Ix d → ℝ) : Ix d → ℝ :=
  pack d (dropTr (tendFld m sw (unpack d v)))

theorem dryField_pack {d : Dims} (hd : DimsOK d) (hc : ConnOK d m) {sw : SWModel ℝ}
    (hH : HookOK d sw noHook m) (n1 : sw.prm.disable_h = false) (n2 : sw.prm.disable_vn = false) (x : Fld ℝ) :
    dryField d m sw (pack d (dropTr x)) = pack d (dropTr (tendFld m sw x)) := by
  have := vfield_pack hd hc hH n1 n2 (dropTr x)
  funext i
  rcases i with i | i | i
  · exact congrFun this (.inl i)
  · exact congrFun this (.inr (.inl i))
  · rfl

/-- it is continuous wherever every vertex is wet -/
theorem dryField_cont {d : Dims} (hc : ConnOK d m) (sw : SWModel ℝ) {v : Ix d → ℝ}
    (hk : ∀ k ∈ Spec.layers d, ∀ i ∈ Spec.verts d, Spec.kiteMean m (fun c => (unpack d v).h c k) i ≠ 0) :
    ContinuousAt (dryField d m sw) v := by
  have sh : ∀ (U : Set (Ix d → ℝ)) k, Sm U (fun v i => (unpack d v).h i k) := fun U k i => by
    simp only [unpack]
    split_ifs with h
    · exact (contDiff_apply ℝ ℝ _).contDiffOn
    · exact contDiffOn_const
  have su : ∀ (U : Set (Ix d → ℝ)) k, Sm U (fun v i => (unpack d v).vn i k) := fun U k i => by
    simp only [unpack]
    split_ifs with h
    · exact (contDiff_apply ℝ ℝ _).contDiffOn
    · exact contDiffOn_const
  refine continuousAt_pi.2 ?_
  rintro (⟨⟨c, hc'⟩, ⟨k, hk'⟩⟩ | ⟨⟨e, he'⟩, ⟨k, hk'⟩⟩ | i)
  · exact (thicknessTend_smooth sw (sh univ k) (su univ k) c).continuousOn.continuousAt univ_mem
  · set U : Set (Ix d → ℝ) := {w | ∀ i ∈ Spec.verts d, Spec.kiteMean m (fun c => (unpack d w).h c k) i ≠ 0} with hU
    have hUv : U ∈ 𝓝 v := by
      refine (Filter.eventually_all_finset _).2 fun i hi => ?_
      have : ContinuousAt (fun w => Spec.kiteMean m (fun c => (unpack d w).h c k) i) v :=
        ((sh univ k).kiteMean (m := m) i).continuousOn.continuousAt univ_mem
      exact this.eventually_ne (hk k hk' i hi)
    have he := Finset.mem_Ico.mp he'
    exact (velocityTend_smooth hc sw k (sh U k) (su U k)
      (fun w hw i i0 i1 => hw i (Finset.mem_Ico.2 ⟨i0, i1⟩)) he.1 he.2).continuousOn.continuousAt hUv
  · exact continuousAt_const

/-- Runge-Kutta stages tend to the tendency at the limit of the states as the step tends to zero. -/
theorem stages_tendsto {d : Dims} (hd : DimsOK d) (hc : ConnOK d m) {sw : SWModel ℝ}
    (hH : HookOK d sw noHook m) (n1 : sw.prm.disable_h = false) (n2 : sw.prm.disable_vn = false) {Z : Type}
    {l : Filter Z} {dt : Z → ℝ} {y : Z → Fld ℝ} {y0 : Fld ℝ} {k : Z → ℕ → Fld ℝ} {s : ℕ} {A : ℕ → ℕ → ℝ}
    (hk : ∀ z, ∀ i < s, k z i = tendFld m sw (comb (y z) (fun j => dt z * A i j) (k z) i))
    (ht : Tendsto dt l (𝓝 0)) (hy : Tendsto (fun z => pack d (dropTr (y z))) l (𝓝 (pack d (dropTr y0))))
    (wet : ∀ k ∈ Spec.layers d, ∀ i ∈ Spec.verts d,
      Spec.kiteMean m (fun c => (unpack d (pack d (dropTr y0))).h c k) i ≠ 0) :
    ∀ i < s, Tendsto (fun z => pack d (dropTr (k z i))) l (𝓝 (pack d (dropTr (tendFld m sw y0)))) := by
  intro i
  induction i using Nat.strong_induction_on with
  | _ i ih =>
    intro hi
    have e : (fun z => pack d (dropTr (k z i))) = fun z => dryField d m sw (pack d (dropTr (y z)) +
        dt z • ∑ j ∈ Finset.range i, A i j • pack d (dropTr (k z j))) := by
      funext z
      rw [hk z i hi, ← dryField_pack hd hc hH n1 n2, dropTr_comb, pack_comb]
    rw [e, ← dryField_pack hd hc hH n1 n2]
    refine (dryField_cont hc sw wet).tendsto.comp ?_
    have t := hy.add (ht.smul (tendsto_finsetSum (Finset.range i) fun j hj =>
      (ih j (Finset.mem_range.1 hj) ((Finset.mem_range.1 hj).trans hi)).const_smul (A i j)))
    simpa using t

/-- the outflow through one side -/
theorem thick_oneEdge (hx : 2 ≤ p.nx) (hy : 2 ≤ p.ny) (g : Geo2 p.nx p.ny p.dims.nlayers dc m.mesh)
    (prm : Params ℝ) (V H ε : ℝ) :
    Spec.thicknessTend m (SWModel.ofParams prm) (fun i => if i = 0 then ε else H) (oneEdge p V) 0 =
      -(V / (3 * dc) * (ε + H)) := by
  have c00 : IsCell p.nx p.ny 0 := ⟨le_rfl, by nlinarith⟩
  have ne := nb_ne hx hy c00 3
  rw [thick_nbrs g prm _ _ c00, Finset.sum_eq_single 3]
  · have : across p.nx p.ny 0 ((3 : ℕ) : Int) = nb p.nx p.ny 3 0 := by unfold across; norm_num
    have e3 : E p.nx p.ny 0 ((3 : ℕ) : Int) = E p.nx p.ny 0 3 := by norm_num
    simp only [this, oneEdge, e3, if_true, if_neg ne]
    unfold outSg
    have := g.dc_pos
    norm_num
    field_simp
  · intro j hj hne
    have : oneEdge p V (E p.nx p.ny 0 j) = 0 := by
      rw [oneEdge, if_neg]
      intro h
      have := E_inj hx hy c00 (by positivity) (by have := Finset.mem_range.1 hj; omega) (by norm_num)
        (by norm_num) h
      omega
    rw [this]
    simp
  · intro h; simp at h

/-- Reducing the step does not keep the layer wet.  For all bounds on speed and depth there is a step such that for
this and every smaller one there is a wet initial state within the bounds whose thickness is negative somewhere after
one step of a fourth-order stepper. -/
theorem C93_fourth_order_may_dry (hv : RunValid p) (hx : 2 ≤ p.nx) (hy : 2 ≤ p.ny) (hdc : 0 < dc)
    {prm : Params ℝ} (n1 : prm.disable_h = false) (n2 : prm.disable_vn = false) {stp : Stepper}
    (hs : FourthOrder stp) {k : Int} (k0 : 0 ≤ k) (k1 : k < p.dims.nlayers) {V H : ℝ} (hV : 0 < V) (hH : 0 < H) :
    ∃ τ : ℝ, 0 < τ ∧ ∀ (t dt : ℝ) (split : Bool), 0 < dt → dt ≤ τ → ∃ m m1 : Mem ℝ, Ready p dc prm m ∧
      (∀ c k, 0 < m.real (.h_cell .state) 0 c k ∧ m.real (.h_cell .state) 0 c k ≤ H) ∧
      (∀ e k, |m.real (.vn_edge .state) 0 e k| ≤ V) ∧
      Exec p.dims (stp.ctor p.dims ++ stp.run p.dims
        ⟨defaultKernels p.dims.vl, split⟩ (SWModel.ofParams prm) [(t, dt)]) m m1 ∧
      ∃ c, 0 ≤ c ∧ c < p.dims.ncells ∧ m1.real (.h_cell .state) 0 c k < 0 := by
  obtain ⟨s, A, b, tab, B0⟩ : ∃ (s : ℕ) (A : ℕ → ℕ → ℝ) (b : ℕ → ℝ), HasTableau stp s A b ∧
      0 < ∑ i ∈ Finset.range s, b i := by
    rcases hs with rfl | rfl
    · refine ⟨4, rkT, rkB, rk4_tableau, ?_⟩
      have := abs_le.1 rk4_order4.o1
      norm_num [defect] at this
      linarith
    · refine ⟨5, lsT, lsT 5, lsrk5_tableau, ?_⟩
      have := (abs_le.1 lsrk5_order4.o1).1
      norm_num [defect] at this
      linarith
  set B := ∑ i ∈ Finset.range s, b i with hB
  set y : ℝ → Fld ℝ := fun ε => ⟨fun i _ => if i = 0 then ε else H, fun e _ => oneEdge p V e, fun _ _ _ => 0⟩ with hy'
  obtain ⟨m, hr, -, -⟩ := exists_ready hv.toValid dc prm (y 0) zeroFld
  obtain ⟨hd, hc⟩ := ready_ok hv hr
  have hHk := hookOK_noHook (noHook_ofParams prm) p.dims m
  have g := Ready.geo2 hr hv.toValid hx hy hdc
  have c00 : IsCell p.nx p.ny 0 := ⟨le_rfl, by nlinarith⟩
  set sw := SWModel.ofParams prm with hsw
  -- the stages for small steps and thin cells
  let Z := ℝ × (ℝ × ℝ)
  set l : Filter Z := comap Prod.snd (𝓝 (0, 0)) with hl
  choose K hK hK' using fun z : Z => tab p.dims m sw n1 n2 z.1 z.2.1 zeroFld (y z.2.2)
  have lim : Tendsto (Prod.snd : Z → ℝ × ℝ) l (𝓝 (0, 0)) := tendsto_comap
  have lt : Tendsto (fun z : Z => z.2.1) l (𝓝 0) := (continuous_fst.tendsto (0, 0)).comp lim
  have le : Tendsto (fun z : Z => z.2.2) l (𝓝 0) := (continuous_snd.tendsto (0, 0)).comp lim
  have ly : Tendsto (fun z : Z => pack p.dims (dropTr (y z.2.2))) l (𝓝 (pack p.dims (dropTr (y 0)))) := by
    refine tendsto_pi_nhds.2 ?_
    rintro (⟨⟨c, hc'⟩, ⟨j, hj⟩⟩ | i | i)
    · by_cases h : c = 0
      · simpa [pack, dropTr, hy', h] using le
      · simp [pack, dropTr, hy', h]
    · exact tendsto_const_nhds
    · exact tendsto_const_nhds
  have wetv : ∀ j ∈ Spec.layers p.dims, ∀ v ∈ Spec.verts p.dims,
      Spec.kiteMean m (fun c => (unpack p.dims (pack p.dims (dropTr (y 0)))).h c j) v ≠ 0 := fun j hj v hv' => by
    have v' := Finset.mem_Ico.mp hv'
    have j' := Finset.mem_Ico.mp hj
    have e : Spec.kiteMean m (fun c => (unpack p.dims (pack p.dims (dropTr (y 0)))).h c j) v =
        Mv p.nx p.ny (fun c => if c = 0 then 0 else H) v := by
      rw [spec_kiteMean g.toGeo _ v'.1 v'.2]
      exact Mv_congr g.hnx (fun c c0 c1 => (unpack_pack p.dims (dropTr (y 0))).h c j c0 c1 j'.1 j'.2) v'.1 v'.2
    rw [e]
    have hvc : IsCell p.nx p.ny (v / 2) := isCell_vertex v'.1 v'.2
    have ge : ∀ c : Int, 0 ≤ (if c = 0 then 0 else H) := fun c => by split_ifs <;> linarith
    have two : Hex.cov p.nx p.ny v 0 ≠ 0 ∨ Hex.cov p.nx p.ny v 1 ≠ 0 := by
      by_contra hh
      push Not at hh
      have := cov_inj hx hy hvc (s := 0) (t := 1) (by omega) (by omega) (hh.1.trans hh.2.symm)
      omega
    unfold Mv
    beta_reduce
    have g0 := ge (Hex.cov p.nx p.ny v 0)
    have g1 := ge (Hex.cov p.nx p.ny v 1)
    have g2 := ge (Hex.cov p.nx p.ny v 2)
    rcases two with h | h
    · rw [if_neg h] at g0 ⊢
      positivity
    · rw [if_neg h] at g1 ⊢
      positivity
  have st := stages_tendsto hd hc hHk n1 n2 hK lt ly wetv
  have sth : ∀ i < s, Tendsto (fun z : Z => (K z i).h 0 k) l (𝓝 (-(V / (3 * dc) * H))) := fun i hi => by
    have := tendsto_pi_nhds.1 (st i hi) (.inl (⟨0, Finset.mem_Ico.2 c00⟩, ⟨k, Finset.mem_Ico.2 ⟨k0, k1⟩⟩))
    have e : (tendFld m sw (y 0)).h 0 k = -(V / (3 * dc) * H) := by
      have := thick_oneEdge hx hy g prm V H 0
      rw [zero_add] at this
      exact this
    rw [← e]
    exact this
  set ρ := V / (3 * dc) * H with hρ
  have ρ0 : 0 < ρ := by positivity
  have sum : Tendsto (fun z : Z => ∑ i ∈ Finset.range s, b i * (K z i).h 0 k) l (𝓝 (-(B * ρ))) := by
    have := tendsto_finsetSum (Finset.range s) fun i hi => (sth i (Finset.mem_range.1 hi)).const_mul (b i)
    rwa [← Finset.sum_mul, ← hB, mul_neg] at this
  have ev : ∀ᶠ z in l, ∑ i ∈ Finset.range s, b i * (K z i).h 0 k < -(B * ρ / 2) :=
    sum.eventually (gt_mem_nhds (by have := mul_pos B0 ρ0; linarith))
  rw [hl, eventually_comap, Metric.eventually_nhds_iff] at ev
  obtain ⟨η, η0, hη⟩ := ev
  refine ⟨η / 2, by linarith, fun t dt split d0 d1 => ?_⟩
  obtain ⟨ε, ε0, ε1, ε2, ε3⟩ : ∃ ε : ℝ, 0 < ε ∧ ε ≤ H ∧ ε < η ∧ ε < dt * (B * ρ / 2) := by
    have : 0 < min (min H η) (dt * (B * ρ / 2)) := by positivity
    refine ⟨min (min H η) (dt * (B * ρ / 2)) / 2, by linarith, ?_, ?_, ?_⟩
    · linarith [(min_le_left (min H η) (dt * (B * ρ / 2))).trans (min_le_left _ _)]
    · linarith [(min_le_left (min H η) (dt * (B * ρ / 2))).trans (min_le_right _ _)]
    · linarith [min_le_right (min H η) (dt * (B * ρ / 2))]
  have ngt := hη (y := (dt, ε)) (by
    rw [Prod.dist_eq, Real.dist_eq, Real.dist_eq, sub_zero, sub_zero, abs_of_pos d0, abs_of_pos ε0]
    exact max_lt (by linarith) ε2) (t, (dt, ε)) rfl
  have hst := setFld_static m .state (y ε)
  have hr' := hr.static hst
  obtain ⟨hd', hc'⟩ := ready_ok hv hr'
  obtain ⟨m1, he⟩ := run_exists hv hr' stp [(t, dt)] split
  have hHk' := hookOK_noHook (noHook_ofParams prm) p.dims (setFld m .state (y ε))
  obtain ⟨-, -, run⟩ := (genSetup hd' hc' hHk').newRun he
  rw [genSys_static hst] at run
  have val : m1.real (.h_cell .state) 0 0 k =
      ε + dt * ∑ i ∈ Finset.range s, b i * (K (t, (dt, ε)) i).h 0 k := by
    have r := run.h 0 k c00.1 c00.2 k0 k1
    rw [setFld_fld] at r
    refine r.trans ((congrArg (fun x : Fld ℝ => x.h 0 k) (hK' (t, (dt, ε)))).trans ?_)
    show (if (0 : Int) = 0 then ε else H) + ∑ i ∈ Finset.range s, dt * b i * (K (t, (dt, ε)) i).h 0 k = _
    rw [if_pos rfl, Finset.mul_sum]
    simp only [mul_assoc]
  refine ⟨_, m1, hr', fun c k => ?_, fun e k => ?_, he, 0, c00.1, c00.2, ?_⟩
  · have : (setFld m .state (y ε)).real (.h_cell .state) 0 c k = if c = 0 then ε else H :=
      congrFun (congrFun (congrArg Fld.h (setFld_fld m .state (y ε))) c) k
    rw [this]
    split_ifs
    · exact ⟨ε0, ε1⟩
    · exact ⟨hH, le_rfl⟩
  · have : (setFld m .state (y ε)).real (.vn_edge .state) 0 e k = oneEdge p V e :=
      congrFun (congrFun (congrArg Fld.vn (setFld_fld m .state (y ε))) e) k
    rw [this]
    unfold oneEdge
    split_ifs
    · rw [abs_of_pos hV]
    · simpa using hV.le
  · rw [val]
    have := mul_lt_mul_of_pos_left ngt d0
    linarith

/-- meshes of four columns and six rows -/
example := C93_fourth_order_may_dry (dc := 1) (prm := ⟨0, 1, 0, 0, 0, 0, false, false⟩)
  p46t_run (by decide) (by decide) one_pos rfl rfl (.inl rfl) le_rfl p46t_layers (V := 1) (H := 1) one_pos one_pos

end Props
end
end Omega
