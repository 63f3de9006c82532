import Verif.Refine.OperatorTest
import Verif.Props.Convergence

/-!
# C67: what the operator convergence test measures
-/

set_option linter.unusedVariables false
set_option linter.unusedSectionVars false

namespace Omega
noncomputable section
namespace Props

open Prog Model Refine Hex

variable {p : MeshParams} {dc : ℝ} {m : Mem ℝ}

/-- the scalar field of `test/operator_convergence.cpp` -/
def opS (Lx Ly : ℝ) (z : ℝ × ℝ) : ℝ :=
  Real.sin (2 * Real.pi * z.1 / Lx) * Real.sin (2 * Real.pi * z.2 / Ly)
/-- the two components of its vector field -/
def opU (Lx Ly : ℝ) (z : ℝ × ℝ) : ℝ :=
  Real.sin (2 * Real.pi * z.1 / Lx) * Real.cos (2 * Real.pi * z.2 / Ly)
@[inherit_doc opU]
def opW (Lx Ly : ℝ) (z : ℝ × ℝ) : ℝ :=
  Real.cos (2 * Real.pi * z.1 / Lx) * Real.sin (2 * Real.pi * z.2 / Ly)

/-- derivatives of a product of two functions of one coordinate each -/
theorem fderiv_prod2 {f g f' g' : ℝ → ℝ} (hf : ∀ x, HasDerivAt f (f' x) x)
    (hg : ∀ x, HasDerivAt g (g' x) x) (z w : ℝ × ℝ) :
    fderiv ℝ (fun z : ℝ × ℝ => f z.1 * g z.2) z w = f' z.1 * g z.2 * w.1 + f z.1 * g' z.2 * w.2 := by
  have h1 : HasFDerivAt (fun z : ℝ × ℝ => f z.1)
      ((f' z.1) • ContinuousLinearMap.fst ℝ ℝ ℝ) z :=
    (hf z.1).comp_hasFDerivAt z hasFDerivAt_fst
  have h2 : HasFDerivAt (fun z : ℝ × ℝ => g z.2)
      ((g' z.2) • ContinuousLinearMap.snd ℝ ℝ ℝ) z :=
    (hg z.2).comp_hasFDerivAt z hasFDerivAt_snd
  have h3 := h1.mul h2
  rw [show (fun z : ℝ × ℝ => f z.1 * g z.2) = (fun z : ℝ × ℝ => f z.1) * fun z => g z.2 from rfl,
    h3.fderiv]
  simp
  ring

theorem deriv_sinw (L x : ℝ) : HasDerivAt (fun x => Real.sin (2 * Real.pi * x / L))
    (2 * Real.pi / L * Real.cos (2 * Real.pi * x / L)) x := by
  have h : HasDerivAt (fun x : ℝ => 2 * Real.pi * x / L) (2 * Real.pi / L) x := by
    simpa using ((hasDerivAt_id x).const_mul (2 * Real.pi)).div_const L
  convert h.sin using 1; ring

theorem deriv_cosw (L x : ℝ) : HasDerivAt (fun x => Real.cos (2 * Real.pi * x / L))
    (-(2 * Real.pi / L * Real.sin (2 * Real.pi * x / L))) x := by
  have h : HasDerivAt (fun x : ℝ => 2 * Real.pi * x / L) (2 * Real.pi / L) x := by
    simpa using ((hasDerivAt_id x).const_mul (2 * Real.pi)).div_const L
  convert h.cos using 1; ring

theorem foldI_Ico (n : Int) (g : Int → ℝ) :
    foldI n 0 (fun j s => s + g j) = ∑ j ∈ Finset.Ico 0 n, g j := by
  rw [foldI_shift, zero_add]
  refine Finset.sum_nbij' (fun i => (i : Int)) (fun i => i.toNat) ?_ ?_ ?_ ?_ ?_
  · intro i hi
    rw [Finset.mem_range] at hi
    simp only [Finset.mem_Ico]; omega
  · intro i hi
    simp only [Finset.mem_Ico] at hi
    rw [Finset.mem_range]; omega
  · intro i hi; simp
  · intro i hi
    simp only [Finset.mem_Ico] at hi
    simp [hi.1]
  · intro i hi; rfl

theorem gradX_eq (m : Mem ℝ) (Lx Ly : ℝ) (e : Int) :
    gradX m Lx Ly e = fderiv ℝ (opS Lx Ly) (edgeAt m e) (normal m e) := by
  unfold opS
  rw [fderiv_prod2 (deriv_sinw Lx) (deriv_sinw Ly)]
  simp only [gradX, Model.wave, edgeAt, normal, lit_real, sin_real, cos_real, pi_real]
  push_cast
  ring

theorem gradD_eq (m : Mem ℝ) (Lx Ly : ℝ) (e : Int) :
    gradD m Lx Ly e = Spec.grad m (fun c => opS Lx Ly (cellAt m c)) e := by
  simp only [gradD, testS, Model.wave, opS, cellAt, lit_real, sin_real, pi_real, Spec.grad,
    Spec.cellOf, Spec.dcE]
  push_cast
  rfl

theorem testN_eq (m : Mem ℝ) (Lx Ly : ℝ) (e : Int) :
    testN m Lx Ly e = normalOf m (opU Lx Ly) (opW Lx Ly) e := by
  simp only [testN, Model.wave, normalOf, normal, opU, opW, edgeAt, lit_real, sin_real, cos_real,
    pi_real]
  push_cast
  rfl

theorem testT_eq (m : Mem ℝ) (Lx Ly : ℝ) (e : Int) :
    testT m Lx Ly e = tangentOf m (opU Lx Ly) (opW Lx Ly) e := by
  simp only [testT, Model.wave, tangentOf, normal, opU, opW, edgeAt, lit_real, sin_real, cos_real,
    pi_real]
  push_cast
  rfl

theorem divX_eq (m : Mem ℝ) (Lx Ly : ℝ) (c : Int) :
    divX m Lx Ly c = divAt (opU Lx Ly) (opW Lx Ly) (cellAt m c) := by
  unfold divAt opU opW
  rw [fderiv_prod2 (deriv_sinw Lx) (deriv_cosw Ly), fderiv_prod2 (deriv_cosw Lx) (deriv_sinw Ly)]
  simp only [divX, Model.wave, cellAt, lit_real, cos_real, pi_real]
  push_cast
  ring

theorem curlX_eq (m : Mem ℝ) (Lx Ly : ℝ) (v : Int) :
    curlX m Lx Ly v = curlAt (opU Lx Ly) (opW Lx Ly) (vertAt m v) := by
  unfold curlAt opU opW
  rw [fderiv_prod2 (deriv_sinw Lx) (deriv_cosw Ly), fderiv_prod2 (deriv_cosw Lx) (deriv_sinw Ly)]
  simp only [curlX, Model.wave, vertAt, lit_real, sin_real, pi_real]
  push_cast
  ring

theorem divD_eq (m : Mem ℝ) (Lx Ly : ℝ) (c : Int) :
    divD m Lx Ly c = Spec.div m (normalOf m (opU Lx Ly) (opW Lx Ly)) c := by
  simp only [divD, lit_real, Int.cast_zero]
  rw [foldI_Ico]
  unfold Spec.div
  congr 1
  refine Finset.sum_congr rfl fun j _ => ?_
  rw [testN_eq]
  simp only [Spec.dvE, Spec.side]
  ring

theorem curlD_eq (m : Mem ℝ) (Lx Ly : ℝ) (v : Int) :
    curlD m Lx Ly v = Spec.curl m (normalOf m (opU Lx Ly) (opW Lx Ly)) v := by
  simp only [curlD, lit_real, Int.cast_zero]
  rw [foldI_Ico]
  unfold Spec.curl
  congr 1
  refine Finset.sum_congr rfl fun j _ => ?_
  rw [testN_eq]
  simp only [Spec.dcE, Spec.spoke]
  ring

theorem reconD_eq (m : Mem ℝ) (Lx Ly : ℝ) (e : Int) :
    reconD m Lx Ly e = Spec.tang m (normalOf m (opU Lx Ly) (opW Lx Ly)) e := by
  simp only [reconD, lit_real, Int.cast_zero]
  rw [foldI_Ico]
  unfold Spec.tang
  refine Finset.sum_congr rfl fun j _ => ?_
  rw [testN_eq]

/-- largest value of `f` on `0, …, n - 1` -/
def IsMaxOf (n : Int) (f : Int → ℝ) (v : ℝ) : Prop := IsGreatest (f '' Set.Ico 0 n) v

theorem IsMaxOf.congr {n : Int} {f g : Int → ℝ} {v : ℝ} (h : ∀ i, 0 ≤ i → i < n → f i = g i) :
    IsMaxOf n f v ↔ IsMaxOf n g v := by
  unfold IsMaxOf
  rw [Set.image_congr (g := g) fun i hi => h i hi.1 hi.2]

theorem exists_maxOf {n : Int} (hn : 0 < n) (f : Int → ℝ) : ∃ v, IsMaxOf n f v := by
  have hf : (f '' Set.Ico 0 n).Finite := (Set.finite_Ico 0 n).image f
  have hne : (f '' Set.Ico 0 n).Nonempty := ⟨_, 0, ⟨le_rfl, hn⟩, rfl⟩
  exact ⟨_, hf.isCompact.isGreatest_sSup hne⟩

/-- The four errors, on the mesh stored in `m`. -/
structure OperatorErrors (p : MeshParams) (Lx Ly : ℝ) (m : Mem ℝ) (eg ed ec er : ℝ) : Prop where
  grad : IsMaxOf p.dims.nedges (fun e => |Spec.grad m (fun c => opS Lx Ly (cellAt m c)) e -
    fderiv ℝ (opS Lx Ly) (edgeAt m e) (normal m e)|) eg
  div : IsMaxOf p.dims.ncells (fun c => |Spec.div m (normalOf m (opU Lx Ly) (opW Lx Ly)) c -
    divAt (opU Lx Ly) (opW Lx Ly) (cellAt m c)|) ed
  curl : IsMaxOf p.dims.nvertices (fun v => |Spec.curl m (normalOf m (opU Lx Ly) (opW Lx Ly)) v -
    curlAt (opU Lx Ly) (opW Lx Ly) (vertAt m v)|) ec
  recon : IsMaxOf p.dims.nedges (fun e => |Spec.tang m (normalOf m (opU Lx Ly) (opW Lx Ly)) e -
    tangentOf m (opU Lx Ly) (opW Lx Ly) e|) er

/-- **C67.** The operator convergence test runs without undefined behaviour on every mesh. The four
numbers it computes are, whatever the order of the parallel iterations and reductions, the largest
pointwise errors of the discrete gradient, divergence, curl and tangential reconstruction against the
derivatives and components of its test fields. -/
theorem C67_operator_test (hv : MeshParams.Valid p) (dc : ℝ) {lowest : ℝ} (hl : lowest ≤ 0)
    (m0 : Mem ℝ) :
    Safe p.dims (compute_mesh_arrays p dc ++
      gradient_launches p.dims (periodX p.nx dc) (periodY p.ny dc) ++
      divergence_launches p.dims (periodX p.nx dc) (periodY p.ny dc) ++
      curl_launches p.dims (periodX p.nx dc) (periodY p.ny dc) ++
      reconstruction_launches p.dims (periodX p.nx dc) (periodY p.ny dc)) m0 ∧
    (∃ eg ed ec er, IsOperatorErrors p dc lowest m0 eg ed ec er) ∧
    ∃ m, Exec p.dims (compute_mesh_arrays p dc) m0 m ∧
      ∀ eg ed ec er, IsOperatorErrors p dc lowest m0 eg ed ec er ↔
        OperatorErrors p (periodX p.nx dc) (periodY p.ny dc) m eg ed ec er := by
  set Lx : ℝ := periodX p.nx dc
  set Ly : ℝ := periodY p.ny dc
  have hmesh := compute_mesh_arrays_runs hv dc m0
  set m := meshMem p dc m0
  have hex : IsHexMesh p dc m := Built.hex hv ⟨m0, hmesh.exec⟩
  have hc : ConnOK p.dims m := conn_of_hex hv hex
  have hN : 0 < p.nx * p.ny := mul_pos hv.nx_pos hv.ny_pos
  have hnc : 0 < p.dims.ncells := hN
  have hne : 0 < p.dims.nedges := by show 0 < 3 * (p.nx * p.ny); omega
  have hnv : 0 < p.dims.nvertices := by show 0 < 2 * (p.nx * p.ny); omega
  obtain ⟨m2, r2, a2, v2⟩ := gradient_runs (d := p.dims) Lx Ly hc
  have hc2 := hc.congr a2.int
  obtain ⟨m3, r3, a3, v3⟩ := divergence_runs (d := p.dims) Lx Ly hc2
  have a3' := a3.trans a2
  have hc3 := hc.congr a3'.int
  obtain ⟨m4, r4, a4, v4⟩ := curl_runs (d := p.dims) Lx Ly hc3
  have a4' := a4.trans a3'
  have hc4 := hc.congr a4'.int
  obtain ⟨m5, r5, a5, v5⟩ := reconstruction_runs (d := p.dims) Lx Ly hc4
  refine ⟨((((hmesh.append r2).append r3).append r4).append r5).1, ?_⟩
  have hX : ∀ {x : Mem ℝ}, Agree isTest x m → (∀ c, divX x Lx Ly c = divX m Lx Ly c) ∧
      (∀ c, divD x Lx Ly c = divD m Lx Ly c) ∧ (∀ c, curlX x Lx Ly c = curlX m Lx Ly c) ∧
      (∀ c, curlD x Lx Ly c = curlD m Lx Ly c) ∧ (∀ c, testT x Lx Ly c = testT m Lx Ly c) ∧
      ∀ c, reconD x Lx Ly c = reconD m Lx Ly c := by
    intro x a
    refine ⟨?_, ?_, ?_, ?_, ?_, ?_⟩ <;> intro c <;>
    simp only [divX, divD, curlX, curlD, testT, reconD, testN, a.int, a.real .area_cell rfl,
      a.real .dv_edge rfl, a.real .edge_sign_on_cell rfl, a.real .x_cell rfl, a.real .y_cell rfl,
      a.real .angle_edge rfl, a.real .x_edge rfl, a.real .y_edge rfl, a.real .area_triangle rfl,
      a.real .dc_edge rfl, a.real .edge_sign_on_vertex rfl, a.real .x_vertex rfl,
      a.real .y_vertex rfl, a.real .weights_on_edge rfl]
  have g2 := fun v => reducesMax_real (d := p.dims) (m := m2) (body := max_body .exact_grad_field)
    (g := fun i => m2.real (.test .exact_grad_field) 0 i 0) (u := lowest) hne (fun i i0 i1 => by
      rw [v2 i i0 i1, absS_real]; exact hl.trans (abs_nonneg _))
    (fun i a i0 i1 => wp_max rfl i0 i1 a) v
  have g3 := fun v => reducesMax_real (d := p.dims) (m := m3) (body := max_body .exact_div_field)
    (g := fun i => m3.real (.test .exact_div_field) 0 i 0) (u := lowest) hnc (fun i i0 i1 => by
      rw [v3 i i0 i1, absS_real]; exact hl.trans (abs_nonneg _))
    (fun i a i0 i1 => wp_max rfl i0 i1 a) v
  have g4 := fun v => reducesMax_real (d := p.dims) (m := m4) (body := max_body .exact_curl_field)
    (g := fun i => m4.real (.test .exact_curl_field) 0 i 0) (u := lowest) hnv (fun i i0 i1 => by
      rw [v4 i i0 i1, absS_real]; exact hl.trans (abs_nonneg _))
    (fun i a i0 i1 => wp_max rfl i0 i1 a) v
  have g5 := fun v => reducesMax_real (d := p.dims) (m := m5) (body := max_body .exact_recon_field)
    (g := fun i => m5.real (.test .exact_recon_field) 0 i 0) (u := lowest) hne (fun i i0 i1 => by
      rw [v5 i i0 i1, absS_real]; exact hl.trans (abs_nonneg _))
    (fun i a i0 i1 => wp_max rfl i0 i1 a) v
  have k2 : ∀ v, ReducesMax p.dims lowest p.dims.nedges (max_body .exact_grad_field) m2 v ↔
      IsMaxOf p.dims.nedges (fun e => |Spec.grad m (fun c => opS Lx Ly (cellAt m c)) e -
        fderiv ℝ (opS Lx Ly) (edgeAt m e) (normal m e)|) v := fun v =>
    (g2 v).trans (IsMaxOf.congr fun i i0 i1 => by
      rw [v2 i i0 i1, absS_real, gradX_eq, gradD_eq, abs_sub_comm])
  have k3 : ∀ v, ReducesMax p.dims lowest p.dims.ncells (max_body .exact_div_field) m3 v ↔
      IsMaxOf p.dims.ncells (fun c => |Spec.div m (normalOf m (opU Lx Ly) (opW Lx Ly)) c -
        divAt (opU Lx Ly) (opW Lx Ly) (cellAt m c)|) v := fun v =>
    (g3 v).trans (IsMaxOf.congr fun i i0 i1 => by
      rw [v3 i i0 i1, absS_real, (hX a2).1, (hX a2).2.1, divX_eq, divD_eq, abs_sub_comm])
  have k4 : ∀ v, ReducesMax p.dims lowest p.dims.nvertices (max_body .exact_curl_field) m4 v ↔
      IsMaxOf p.dims.nvertices (fun v => |Spec.curl m (normalOf m (opU Lx Ly) (opW Lx Ly)) v -
        curlAt (opU Lx Ly) (opW Lx Ly) (vertAt m v)|) v := fun v =>
    (g4 v).trans (IsMaxOf.congr fun i i0 i1 => by
      rw [v4 i i0 i1, absS_real, (hX a3').2.2.1, (hX a3').2.2.2.1, curlX_eq, curlD_eq, abs_sub_comm])
  have k5 : ∀ v, ReducesMax p.dims lowest p.dims.nedges (max_body .exact_recon_field) m5 v ↔
      IsMaxOf p.dims.nedges (fun e => |Spec.tang m (normalOf m (opU Lx Ly) (opW Lx Ly)) e -
        tangentOf m (opU Lx Ly) (opW Lx Ly) e|) v := fun v =>
    (g5 v).trans (IsMaxOf.congr fun i i0 i1 => by
      rw [v5 i i0 i1, absS_real, (hX a4').2.2.2.2.1, (hX a4').2.2.2.2.2, testT_eq, reconD_eq,
        abs_sub_comm])
  suffices key : ∀ eg ed ec er, IsOperatorErrors p dc lowest m0 eg ed ec er ↔
      OperatorErrors p Lx Ly m eg ed ec er by
    refine ⟨?_, m, hmesh.exec, key⟩
    obtain ⟨eg, q2⟩ := exists_maxOf hne _
    obtain ⟨ed, q3⟩ := exists_maxOf hnc _
    obtain ⟨ec, q4⟩ := exists_maxOf hnv _
    obtain ⟨er, q5⟩ := exists_maxOf hne _
    exact ⟨eg, ed, ec, er, (key _ _ _ _).2 ⟨q2, q3, q4, q5⟩⟩
  intro eg ed ec er
  constructor
  · rintro ⟨n1, n2, n3, n4, n5, e1, e2, q2, e3, q3, e4, q4, e5, q5⟩
    obtain rfl := (hmesh.2 n1).1 e1
    obtain rfl := (r2.2 n2).1 e2
    obtain rfl := (r3.2 n3).1 e3
    obtain rfl := (r4.2 n4).1 e4
    obtain rfl := (r5.2 n5).1 e5
    exact ⟨(k2 _).1 q2, (k3 _).1 q3, (k4 _).1 q4, (k5 _).1 q5⟩
  · rintro ⟨q2, q3, q4, q5⟩
    exact ⟨m, m2, m3, m4, m5, hmesh.exec, r2.exec, (k2 _).2 q2, r3.exec, (k3 _).2 q3, r4.exec,
      (k4 _).2 q4, r5.exec, (k5 _).2 q5⟩

/-- The same program in any arithmetic: no out-of-bounds access, no data race, exactly one memory
state at the end. -/
theorem C67_operator_safe {R : Type} [Scalar R] (hv : MeshParams.Valid p) (dc : R) (m0 : Mem R) :
    Safe p.dims (compute_mesh_arrays p dc ++
      gradient_launches p.dims (periodX p.nx dc) (periodY p.ny dc) ++
      divergence_launches p.dims (periodX p.nx dc) (periodY p.ny dc) ++
      curl_launches p.dims (periodX p.nx dc) (periodY p.ny dc) ++
      reconstruction_launches p.dims (periodX p.nx dc) (periodY p.ny dc)) m0 ∧
    ∃ m, ∀ m', Exec p.dims (compute_mesh_arrays p dc ++
      gradient_launches p.dims (periodX p.nx dc) (periodY p.ny dc) ++
      divergence_launches p.dims (periodX p.nx dc) (periodY p.ny dc) ++
      curl_launches p.dims (periodX p.nx dc) (periodY p.ny dc) ++
      reconstruction_launches p.dims (periodX p.nx dc) (periodY p.ny dc)) m0 m' ↔ m' = m := by
  set Lx : R := periodX p.nx dc
  set Ly : R := periodY p.ny dc
  have hmesh := compute_mesh_arrays_runs hv dc m0
  have hc : ConnOK p.dims (meshMem p dc m0) := conn_of_hex hv (Built.hex hv ⟨m0, hmesh.exec⟩)
  obtain ⟨m2, r2, a2, -⟩ := gradient_runs (d := p.dims) Lx Ly hc
  have hc2 := hc.congr a2.int
  obtain ⟨m3, r3, a3, -⟩ := divergence_runs (d := p.dims) Lx Ly hc2
  have hc3 := hc2.congr a3.int
  obtain ⟨m4, r4, a4, -⟩ := curl_runs (d := p.dims) Lx Ly hc3
  have hc4 := hc3.congr a4.int
  obtain ⟨m5, r5, a5, -⟩ := reconstruction_runs (d := p.dims) Lx Ly hc4
  have r := (((hmesh.append r2).append r3).append r4).append r5
  exact ⟨r.1, m5, fun m' => r.2 m'⟩

/-- The hypotheses hold, and the largest gradient error of a nontrivial mesh is a value. -/
example : ∃ eg ed ec er : ℝ, MeshParams.Valid p46 ∧ IsOperatorErrors p46 (1 / 4) (-1)
    ⟨fun _ _ _ => 0, fun _ _ _ _ => 0⟩ eg ed ec er := by
  obtain ⟨-, ⟨a, b, c, d, h⟩, -⟩ := C67_operator_test p46_valid (1 / 4) (by norm_num : (-1:ℝ) ≤ 0)
    ⟨fun _ _ _ => 0, fun _ _ _ _ => 0⟩
  exact ⟨a, b, c, d, p46_valid, h⟩

end Props
end
end Omega
