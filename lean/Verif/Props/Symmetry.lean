import Verif.Refine.HexSym
import Verif.Props.Conservation
import Verif.Props.Translation

/-!
# C88, C89, C90: units, time reversal, half turn and mirror image

One statement covers all three: a symmetry `σ` of the lattice, the length `L` of one run's cells in
cells of the other, a factor `T` for time (negative: backwards), `H` for the layer thickness and
`Q l` for the content of tracer `l`.  Parameters that carry a dimension change accordingly; the two
runs then agree up to these factors, at every step, for every stepper.
-/

set_option linter.unusedVariables false
set_option linter.unusedSectionVars false

namespace Omega
noncomputable section
namespace Props

open Prog Model Refine Hex

section

variable {nx ny : Int}

/-- `φ'` on cells is `a` times `φ` moved by `σ` -/
def OnC (σ : LatSym nx ny) (a : ℝ) (φ φ' : Int → ℝ) : Prop :=
  ∀ i, IsCell nx ny i → φ' i = a * φ (σ.c i)
/-- the same for vertices -/
def OnV (σ : LatSym nx ny) (a : ℝ) (φ φ' : Int → ℝ) : Prop :=
  ∀ i, 0 ≤ i → i < 2 * (nx * ny) → φ' i = a * φ (σ.v i)
/-- the same for scalars on edges -/
def OnE (σ : LatSym nx ny) (a : ℝ) (φ φ' : Int → ℝ) : Prop :=
  ∀ i, 0 ≤ i → i < 3 * (nx * ny) → φ' i = a * φ (σ.e i)
/-- the same for normal components, which change sign with the normal -/
def OnN (σ : LatSym nx ny) (a : ℝ) (u u' : Int → ℝ) : Prop :=
  ∀ i, 0 ≤ i → i < 3 * (nx * ny) → u' i = a * (σ.eps i * u (σ.e i))

variable {σ : LatSym nx ny} {a b : ℝ} {φ φ' ψ ψ' u u' : Int → ℝ}

theorem OnE.mulE (h : OnE σ a φ φ') (h' : OnN σ b u u') :
    OnN σ (a * b) (fun e => φ e * u e) (fun e => φ' e * u' e) := fun i h0 h1 => by
  beta_reduce; rw [h i h0 h1, h' i h0 h1]; ring

theorem OnE.mul (h : OnE σ a φ φ') (h' : OnE σ b ψ ψ') :
    OnE σ (a * b) (fun e => φ e * ψ e) (fun e => φ' e * ψ' e) := fun i h0 h1 => by
  beta_reduce; rw [h i h0 h1, h' i h0 h1]; ring

theorem OnC.div (h : OnC σ a φ φ') (h' : OnC σ b ψ ψ') :
    OnC σ (a / b) (fun e => φ e / ψ e) (fun e => φ' e / ψ' e) := fun i hi => by
  beta_reduce; rw [h i hi, h' i hi, mul_div_mul_comm]

theorem OnN.congr (h : OnN σ a u u') (e : a = b) : OnN σ b u u' := e ▸ h
theorem OnC.congr (h : OnC σ a u u') (e : a = b) : OnC σ b u u' := e ▸ h

end

variable {p : MeshParams} {dc L : ℝ} {m m' : Mem ℝ} {σ : LatSym p.nx p.ny}

/-! ### Operators -/

section

variable {a b : ℝ} {φ φ' ψ ψ' u u' : Int → ℝ}
variable (hL : 0 < L) (g : Geo2 p.nx p.ny p.dims.nlayers dc m.mesh)
  (g' : Geo2 p.nx p.ny p.dims.nlayers (L * dc) m'.mesh)
include hL g g'

theorem grad_s (h : OnC σ a φ φ') : OnN σ (a / L) (Spec.grad m φ) (Spec.grad m' φ') := fun i h0 h1 => by
  obtain ⟨s0, s1⟩ := σ.edge h0 h1
  rw [spec_grad g'.toGeo _ h0 h1, spec_grad g.toGeo _ s0 s1,
    Gr_congr g.hnx (φ' := fun j => (fun i => a * φ i) (σ.c j)) (fun i a b => h i ⟨a, b⟩) h0 h1,
    σ.gr (fun i => a * φ i) h0 h1]
  have := g.dc_pos
  unfold Gr; field_simp

theorem mean_s (h : OnC σ a φ φ') : OnE σ a (Spec.mean m φ) (Spec.mean m' φ') := fun i h0 h1 => by
  obtain ⟨s0, s1⟩ := σ.edge h0 h1
  rw [spec_mean g'.toGeo _ h0 h1, spec_mean g.toGeo _ s0 s1,
    Mn_congr g.hnx (φ' := fun j => (fun i => a * φ i) (σ.c j)) (fun i a b => h i ⟨a, b⟩) h0 h1,
    σ.mn (fun i => a * φ i) h0 h1]
  unfold Mn; ring

theorem vmean_s (h : OnV σ a ψ ψ') : OnE σ a (Spec.vmean m ψ) (Spec.vmean m' ψ') := fun i h0 h1 => by
  obtain ⟨s0, s1⟩ := σ.edge h0 h1
  have r := fun s hs => voe_isVertex g.hnx (isCell_edge h0 h1) (s := s) hs
  have k := σ.vm ψ h0 h1
  have e0 : Spec.vertOf m' i 0 = Hex.voe p.nx p.ny i 0 := g'.voe i h0 h1 0 (by omega) (by omega)
  have e1 : Spec.vertOf m' i 1 = Hex.voe p.nx p.ny i 1 := g'.voe i h0 h1 1 (by omega) (by omega)
  have f0 : Spec.vertOf m (σ.e i) 0 = Hex.voe p.nx p.ny (σ.e i) 0 :=
    g.voe _ s0 s1 0 (by omega) (by omega)
  have f1 : Spec.vertOf m (σ.e i) 1 = Hex.voe p.nx p.ny (σ.e i) 1 :=
    g.voe _ s0 s1 1 (by omega) (by omega)
  unfold Spec.vmean
  rw [e0, e1, f0, f1, h _ (r 0 (.inl rfl)).1 (r 0 (.inl rfl)).2,
    h _ (r 1 (.inr rfl)).1 (r 1 (.inr rfl)).2]
  linear_combination (a / 2) * k

theorem gradT_s (h : OnV σ a ψ ψ') :
    OnN σ (σ.kap * a / L) (Spec.gradT m ψ) (Spec.gradT m' ψ') := fun i h0 h1 => by
  obtain ⟨s0, s1⟩ := σ.edge h0 h1
  rw [spec_gradT g'.toGeo _ h0 h1, spec_gradT g.toGeo _ s0 s1,
    Gv_congr g.hnx (ψ' := fun j => (fun i => a * ψ i) (σ.v j)) (fun i a b => h i a b) h0 h1,
    σ.gv (fun i => a * ψ i) h0 h1]
  have := g.dc_pos
  unfold Gv; field_simp

theorem div_s (h : OnN σ a u u') : OnC σ (a / L) (Spec.div m u) (Spec.div m' u') := fun i hi => by
  rw [spec_div g' _ hi, spec_div g _ (σ.cell hi),
    Dv_congr g.hnx (u' := fun j => σ.eps j * (fun i => a * u i) (σ.e j))
      (fun i h0 h1 => by rw [h i h0 h1]; ring) hi, σ.dv (fun i => a * u i) hi]
  have := g.dc_pos
  unfold Dv; field_simp

theorem curl_s (h : OnN σ a u u') :
    OnV σ (σ.kap * a / L) (Spec.curl m u) (Spec.curl m' u') := fun i h0 h1 => by
  obtain ⟨s0, s1⟩ := σ.vert h0 h1
  rw [spec_curl g'.toGeo _ h0 h1, spec_curl g.toGeo _ s0 s1,
    Cu_congr g.hnx (u' := fun j => σ.eps j * (fun i => a * u i) (σ.e j))
      (fun i h0 h1 => by rw [h i h0 h1]; ring) h0 h1, σ.cu (fun i => a * u i) h0 h1]
  have := g.dc_pos; have := w_pos
  have e : ∀ v, Cu p.nx p.ny (fun i => a * u i) v = a * Cu p.nx p.ny u v := fun v => by
    unfold Cu; split_ifs <;> ring
  rw [e]; field_simp

theorem kiteMean_s (h : OnC σ a φ φ') :
    OnV σ a (Spec.kiteMean m φ) (Spec.kiteMean m' φ') := fun i h0 h1 => by
  obtain ⟨s0, s1⟩ := σ.vert h0 h1
  rw [spec_kiteMean g'.toGeo _ h0 h1, spec_kiteMean g.toGeo _ s0 s1,
    Mv_congr g.hnx (φ' := fun j => (fun i => a * φ i) (σ.c j)) (fun i a b => h i ⟨a, b⟩) h0 h1,
    σ.mv (fun i => a * φ i) h0 h1]
  unfold Mv; ring

theorem kinetic_s (h : OnN σ a u u') :
    OnC σ (a ^ 2) (Spec.kinetic m u) (Spec.kinetic m' u') := fun i hi => by
  rw [spec_kinetic g'.toGeo _ hi, spec_kinetic g.toGeo _ (σ.cell hi),
    Sd_congr g.hnx (u' := fun j => (fun i => a ^ 2 * (u i * u i)) (σ.e j))
      (fun i h0 h1 => by
        rw [h i h0 h1]; linear_combination (a ^ 2 * (u (σ.e i) * u (σ.e i))) * σ.eps_sq i) hi, σ.sd (fun i => a ^ 2 * (u i * u i)) hi]
  unfold Sd; ring

theorem pvFlux_s (h : OnE σ a φ φ') (h' : OnN σ b u u') :
    OnN σ (σ.kap * (a * b)) (Spec.pvFlux m φ u) (Spec.pvFlux m' φ' u') := fun i h0 h1 => by
  obtain ⟨s0, s1⟩ := σ.edge h0 h1
  rw [spec_pvFlux g'.toGeo _ _ h0 h1, spec_pvFlux g.toGeo _ _ s0 s1,
    Tw_congr g.hnx (F' := fun i j => σ.eps j *
      (fun x y => a * b * (u y * ((φ x + φ y) / 2))) (σ.e i) (σ.e j)) h0 h1
      (fun j j0 j1 => by rw [h i h0 h1, h j j0 j1, h' j j0 j1]; ring), σ.tw (fun x y => a * b * (u y * ((φ x + φ y) / 2))) h0 h1]
  have e : ∀ v, Tw p.nx p.ny (fun x y => a * b * (u y * ((φ x + φ y) / 2))) v =
      a * b * Tw p.nx p.ny (fun x y => u y * ((φ x + φ y) / 2)) v := fun v => by
    unfold Tw; rw [Finset.mul_sum]; exact Finset.sum_congr rfl fun _ _ => by ring
  rw [e]; ring

omit hL g' in
theorem vecLap_sym_eq (u : Int → ℝ) {e : Int} (h0 : 0 ≤ e) (h1 : e < 3 * (p.nx * p.ny)) :
    Spec.vecLap m u e = Spec.grad m (Spec.div m u) e - Spec.gradT m (Spec.curl m u) e := by
  unfold Spec.vecLap Spec.gradT
  have e1 : Spec.dvE m e = dc * √3 / 3 := g.dv e h0 h1
  have e2 : Spec.dcE m e = dc := g.dcE e h0 h1
  rw [max_eq_left]
  rw [e1, e2]
  have : (1 : ℝ) ≤ √3 := by rw [Real.le_sqrt (by norm_num) (by norm_num)]; norm_num
  have := g.dc_pos
  nlinarith

theorem lap_s (h : OnN σ a u u') :
    OnN σ (a / L ^ 2) (fun e => Spec.grad m (Spec.div m u) e - Spec.gradT m (Spec.curl m u) e)
      (fun e => Spec.grad m' (Spec.div m' u') e - Spec.gradT m' (Spec.curl m' u') e) := fun i h0 h1 => by
  have k1 := grad_s hL g g' (div_s hL g g' h) i h0 h1
  have k2 := gradT_s hL g g' (curl_s hL g g' h) i h0 h1
  have e : σ.kap * (σ.kap * a / L) / L = a / L / L := by
    linear_combination (a / L / L) * σ.kap_sq
  rw [e] at k2
  beta_reduce
  rw [k1, k2]
  field_simp

theorem vecLap_s (h : OnN σ a u u') :
    OnN σ (a / L ^ 2) (Spec.vecLap m u) (Spec.vecLap m' u') := fun i h0 h1 => by
  obtain ⟨s0, s1⟩ := σ.edge h0 h1
  rw [vecLap_sym_eq g' _ h0 h1, vecLap_sym_eq g _ s0 s1]
  exact lap_s hL g g' h i h0 h1

end

/-! ### Tendencies -/

/-- How the parameters of the second model follow from those of the first. -/
structure SwSym (κ L T H : ℝ) (sw sw' : SWModel ℝ) : Prop where
  f0 : sw'.prm.f0 = κ / T * sw.prm.f0
  grav : sw'.prm.grav = L ^ 2 / (T ^ 2 * H) * sw.prm.grav
  visc2 : sw.en_vdiff = true → sw'.prm.visc_del2 = L ^ 2 / T * sw.prm.visc_del2
  visc4 : sw.en_vhyper = true → sw'.prm.visc_del4 = L ^ 4 / T * sw.prm.visc_del4
  eddy2 : sw.en_tdiff = true → sw'.prm.eddy_diff2 = L ^ 2 / T * sw.prm.eddy_diff2
  eddy4 : sw.en_thyper = true → sw'.prm.eddy_diff4 = L ^ 4 / T * sw.prm.eddy_diff4
  dis_h : sw'.prm.disable_h = sw.prm.disable_h
  dis_vn : sw'.prm.disable_vn = sw.prm.disable_vn
  en_hadv : sw'.en_hadv = sw.en_hadv
  en_pv : sw'.en_pv = sw.en_pv
  en_ke : sw'.en_ke = sw.en_ke
  en_ssh : sw'.en_ssh = sw.en_ssh
  en_vdiff : sw'.en_vdiff = sw.en_vdiff
  en_vhyper : sw'.en_vhyper = sw.en_vhyper
  en_thadv : sw'.en_thadv = sw.en_thadv
  en_tdiff : sw'.en_tdiff = sw.en_tdiff
  en_thyper : sw'.en_thyper = sw.en_thyper

section

variable {T H : ℝ} {sw sw' : SWModel ℝ} {h h' u u' s s' : Int → ℝ}
variable (hL : 0 < L) (hT : T ≠ 0) (hH : H ≠ 0) (g : Geo2 p.nx p.ny p.dims.nlayers dc m.mesh)
  (g' : Geo2 p.nx p.ny p.dims.nlayers (L * dc) m'.mesh) (hs : SwSym σ.kap L T H sw sw')
include hL hT hH g g' hs

theorem thickness_s (hh : OnC σ H h h') (hu : OnN σ (L / T) u u') :
    OnC σ (H / T) (Spec.thicknessTend m sw h u) (Spec.thicknessTend m' sw' h' u') := fun i hi => by
  have k := div_s hL g g' ((mean_s hL g g' hh).mulE hu) i hi
  unfold Spec.thicknessTend
  rw [hs.en_hadv]
  split_ifs
  · rw [k]; field_simp
  · simp

theorem velocity_s {k : Int} (k0 : 0 ≤ k) (k1 : k < p.dims.nlayers)
    (hf : ∀ v, 0 ≤ v → v < 2 * (p.nx * p.ny) → m.real .f_vertex 0 v 0 = sw.prm.f0)
    (hf' : ∀ v, 0 ≤ v → v < 2 * (p.nx * p.ny) → m'.real .f_vertex 0 v 0 = sw'.prm.f0)
    (hh : OnC σ H h h') (hu : OnN σ (L / T) u u') :
    OnN σ (L / T ^ 2) (Spec.velocityTend m sw k h u) (Spec.velocityTend m' sw' k h' u') :=
    fun i h0 h1 => by
  obtain ⟨s0, s1⟩ := σ.edge h0 h1
  have hpv : OnV σ (σ.kap / (T * H)) (Spec.pv m h u) (Spec.pv m' h' u') := fun v v0 v1 => by
    obtain ⟨t0, t1⟩ := σ.vert v0 v1
    unfold Spec.pv
    rw [curl_s hL g g' hu v v0 v1, kiteMean_s hL g g' hh v v0 v1, hf _ t0 t1, hf' v v0 v1, hs.f0]
    field_simp
  have A := pvFlux_s hL g g' (vmean_s hL g g' hpv) ((mean_s hL g g' hh).mulE hu) i h0 h1
  have B := grad_s hL g g' (kinetic_s hL g g' hu) i h0 h1
  have C := grad_s hL g g' hh i h0 h1
  have D := lap_s hL g g' hu i h0 h1
  have E := lap_s hL g g' (vecLap_s hL g g' hu) i h0 h1
  beta_reduce at D E
  have mk : m.real .edge_mask 0 (σ.e i) k = m'.real .edge_mask 0 i k :=
    (g.mask _ s0 s1 k k0 k1).trans (g'.mask _ h0 h1 k k0 k1).symm
  have d2 : m.real .mesh_scaling_del2 0 (σ.e i) 0 = m'.real .mesh_scaling_del2 0 i 0 :=
    (g.sdel2 _ s0 s1).trans (g'.sdel2 _ h0 h1).symm
  have d4 : m.real .mesh_scaling_del4 0 (σ.e i) 0 = m'.real .mesh_scaling_del4 0 i 0 :=
    (g.sdel4 _ s0 s1).trans (g'.sdel4 _ h0 h1).symm
  have eA : σ.kap * (σ.kap / (T * H) * (H * (L / T))) = L / T ^ 2 := by
    field_simp
    have := σ.kap_sq
    nlinarith
  rw [eA] at A
  unfold Spec.velocityTend
  rw [A, B, C, D, E, hs.en_pv, hs.en_ke, hs.en_ssh, hs.en_vdiff, hs.en_vhyper, hs.grav, mk, d2, d4]
  have x1 : (if sw.en_vdiff = true then sw'.prm.visc_del2 * m'.real .edge_mask 0 i k *
      m'.real .mesh_scaling_del2 0 i 0 * (L / T / L ^ 2 * (σ.eps i *
        (Spec.grad m (Spec.div m u) (σ.e i) - Spec.gradT m (Spec.curl m u) (σ.e i)))) else 0) =
      L / T ^ 2 * (σ.eps i * if sw.en_vdiff = true then sw.prm.visc_del2 * m'.real .edge_mask 0 i k *
        m'.real .mesh_scaling_del2 0 i 0 * (Spec.grad m (Spec.div m u) (σ.e i) -
          Spec.gradT m (Spec.curl m u) (σ.e i)) else 0) := by
    split_ifs with c
    · rw [hs.visc2 c]; field_simp
    · simp
  have x2 : (if sw.en_vhyper = true then sw'.prm.visc_del4 * m'.real .edge_mask 0 i k *
      m'.real .mesh_scaling_del4 0 i 0 * (L / T / L ^ 2 / L ^ 2 * (σ.eps i *
        (Spec.grad m (Spec.div m (Spec.vecLap m u)) (σ.e i) -
          Spec.gradT m (Spec.curl m (Spec.vecLap m u)) (σ.e i)))) else 0) =
      L / T ^ 2 * (σ.eps i * if sw.en_vhyper = true then sw.prm.visc_del4 * m'.real .edge_mask 0 i k *
        m'.real .mesh_scaling_del4 0 i 0 * (Spec.grad m (Spec.div m (Spec.vecLap m u)) (σ.e i) -
          Spec.gradT m (Spec.curl m (Spec.vecLap m u)) (σ.e i)) else 0) := by
    split_ifs with c
    · rw [hs.visc4 c]; field_simp
    · simp
  have x3 : (if sw.en_pv = true then L / T ^ 2 * (σ.eps i * Spec.pvFlux m (Spec.vmean m (Spec.pv m h u))
        (fun e => Spec.mean m h e * u e) (σ.e i)) else 0) =
      L / T ^ 2 * (σ.eps i * if sw.en_pv = true then Spec.pvFlux m (Spec.vmean m (Spec.pv m h u))
        (fun e => Spec.mean m h e * u e) (σ.e i) else 0) := by
    split_ifs <;> simp
  have x4 : (if sw.en_ke = true then (L / T) ^ 2 / L * (σ.eps i * Spec.grad m (Spec.kinetic m u) (σ.e i))
      else 0) =
      L / T ^ 2 * (σ.eps i * if sw.en_ke = true then Spec.grad m (Spec.kinetic m u) (σ.e i) else 0) := by
    split_ifs
    · field_simp
    · simp
  have x5 : (if sw.en_ssh = true then L ^ 2 / (T ^ 2 * H) * sw.prm.grav *
      (H / L * (σ.eps i * Spec.grad m h (σ.e i))) else 0) =
      L / T ^ 2 * (σ.eps i * if sw.en_ssh = true then sw.prm.grav * Spec.grad m h (σ.e i) else 0) := by
    split_ifs
    · field_simp
    · simp
  rw [x1, x2, x3, x4, x5]
  ring

theorem tracer_s {Q : ℝ} (hh : OnC σ H h h') (hu : OnN σ (L / T) u u') (hq : OnC σ Q s s') :
    OnC σ (Q / T) (Spec.tracerTend m sw h u s) (Spec.tracerTend m' sw' h' u' s') := fun i hi => by
  have hc := hq.div hh
  have M := mean_s hL g g' hh
  have d2 : OnE σ 1 (fun e => m.real .mesh_scaling_del2 0 e 0)
      (fun e => m'.real .mesh_scaling_del2 0 e 0) := fun e h0 h1 => by
    obtain ⟨s0, s1⟩ := σ.edge h0 h1
    rw [one_mul]
    exact (g'.sdel2 _ h0 h1).trans (g.sdel2 _ s0 s1).symm
  have d4 : OnE σ 1 (fun e => m.real .mesh_scaling_del4 0 e 0)
      (fun e => m'.real .mesh_scaling_del4 0 e 0) := fun e h0 h1 => by
    obtain ⟨s0, s1⟩ := σ.edge h0 h1
    rw [one_mul]
    exact (g'.sdel4 _ h0 h1).trans (g.sdel4 _ s0 s1).symm
  have A := div_s hL g g' ((M.mul (mean_s hL g g' hc)).mulE hu) i hi
  have B := div_s hL g g' ((d2.mul M).mulE (grad_s hL g g' hc)) i hi
  have C := div_s hL g g' (d4.mulE (grad_s hL g g' (div_s hL g g' (M.mulE (grad_s hL g g' hc))))) i hi
  unfold Spec.tracerTend
  rw [A, B, C, hs.en_thadv, hs.en_tdiff, hs.en_thyper]
  have x1 : ∀ z : ℝ, (if sw.en_thadv = true then -(H * (Q / H) * (L / T) / L * z) else 0) =
      Q / T * if sw.en_thadv = true then -z else 0 := fun z => by
    split_ifs
    · field_simp
    · simp
  have x2 : ∀ z : ℝ, (if sw.en_tdiff = true then sw'.prm.eddy_diff2 * (1 * H * (Q / H / L) / L * z) else 0) =
      Q / T * if sw.en_tdiff = true then sw.prm.eddy_diff2 * z else 0 := fun z => by
    split_ifs with c
    · rw [hs.eddy2 c]; field_simp
    · simp
  have x3 : ∀ z : ℝ, (if sw.en_thyper = true then sw'.prm.eddy_diff4 *
      (1 * (H * (Q / H / L) / L / L) / L * z) else 0) =
      Q / T * if sw.en_thyper = true then sw.prm.eddy_diff4 * z else 0 := fun z => by
    split_ifs with c
    · rw [hs.eddy4 c]; field_simp
    · simp
  rw [x1, x2, x3]
  ring

end

/-! ### Steps and runs -/

/-- Fields that agree up to factors and the symmetry, on all valid indices. -/
structure FldS (σ : LatSym p.nx p.ny) (A B : ℝ) (C : Int → ℝ) (x x' : Fld ℝ) : Prop where
  h : ∀ k, 0 ≤ k → k < p.dims.nlayers → OnC σ A (fun c => x.h c k) (fun c => x'.h c k)
  vn : ∀ k, 0 ≤ k → k < p.dims.nlayers → OnN σ B (fun c => x.vn c k) (fun c => x'.vn c k)
  tr : ∀ l, 0 ≤ l → l < p.dims.ntracers → ∀ k, 0 ≤ k → k < p.dims.nlayers →
    OnC σ (C l) (fun c => x.tr l c k) (fun c => x'.tr l c k)

theorem FldS.map {A B : ℝ} {C : Int → ℝ} {x x' : Fld ℝ} (h : FldS σ A B C x x') (a : ℝ) :
    FldS σ A B C (x.map (· * a)) (x'.map (· * a)) := by
  refine ⟨fun k k0 k1 i hi => ?_, fun k k0 k1 i h0 h1 => ?_, fun l l0 l1 k k0 k1 i hi => ?_⟩
  · have := h.h k k0 k1 i hi
    simp only [Fld.map] at this ⊢; rw [this]; ring
  · have := h.vn k k0 k1 i h0 h1
    simp only [Fld.map] at this ⊢; rw [this]; ring
  · have := h.tr l l0 l1 k k0 k1 i hi
    simp only [Fld.map] at this ⊢; rw [this]; ring

theorem FldS.axpy {T A B : ℝ} (hT : T ≠ 0) {C : Int → ℝ} {x x' y y' : Fld ℝ} (h : FldS σ A B C x x')
    (hy : FldS σ (A / T) (B / T) (fun l => C l / T) y y') {a a' : ℝ} (ha : a' = T * a) :
    FldS σ A B C (x.axpy a y) (x'.axpy a' y') := by
  subst ha
  refine ⟨fun k k0 k1 i hi => ?_, fun k k0 k1 i h0 h1 => ?_, fun l l0 l1 k k0 k1 i hi => ?_⟩
  · have k1' := h.h k k0 k1 i hi
    have k2' := hy.h k k0 k1 i hi
    simp only [Fld.axpy, Fld.zip] at k1' k2' ⊢; rw [k1', k2']; field_simp
  · have k1' := h.vn k k0 k1 i h0 h1
    have k2' := hy.vn k k0 k1 i h0 h1
    simp only [Fld.axpy, Fld.zip] at k1' k2' ⊢; rw [k1', k2']; field_simp
  · have k1' := h.tr l l0 l1 k k0 k1 i hi
    have k2' := hy.tr l l0 l1 k k0 k1 i hi
    simp only [Fld.axpy, Fld.zip] at k1' k2' ⊢; rw [k1', k2']; field_simp

section

variable {T H : ℝ} {Q : Int → ℝ} {sw sw' : SWModel ℝ}

/-- Everything about the two configurations that the comparison needs. -/
structure Twin (σ : LatSym p.nx p.ny) (dc L T H : ℝ) (m m' : Mem ℝ) (sw sw' : SWModel ℝ) : Prop where
  hL : 0 < L
  hT : T ≠ 0
  hH : H ≠ 0
  g : Geo2 p.nx p.ny p.dims.nlayers dc m.mesh
  g' : Geo2 p.nx p.ny p.dims.nlayers (L * dc) m'.mesh
  prm : SwSym σ.kap L T H sw sw'
  f : ∀ v, 0 ≤ v → v < 2 * (p.nx * p.ny) → m.real .f_vertex 0 v 0 = sw.prm.f0
  f' : ∀ v, 0 ≤ v → v < 2 * (p.nx * p.ny) → m'.real .f_vertex 0 v 0 = sw'.prm.f0

variable (W : Twin σ dc L T H m m' sw sw')
include W

theorem tend_s {o o' s s' : Fld ℝ} (mode : AddMode) (t t' : ℝ)
    (ho : FldS σ (H / T) (L / T / T) (fun l => Q l / T) o o') (hs : FldS σ H (L / T) Q s s') :
    FldS σ (H / T) (L / T / T) (fun l => Q l / T) ((genSys p.dims sw noHook m).tend mode t o s)
      ((genSys p.dims sw' noHook m').tend mode t' o' s') := by
  obtain ⟨a1, a2, a3⟩ := tend_val (m := m) p.dims sw mode t o s
  obtain ⟨b1, b2, b3⟩ := tend_val (m := m') p.dims sw' mode t' o' s'
  have eT : L / T ^ 2 = L / T / T := by have := W.hT; field_simp
  refine ⟨fun k k0 k1 i hi => ?_, fun k k0 k1 i h0 h1 => ?_, fun l l0 l1 k k0 k1 i hi => ?_⟩
  · beta_reduce
    have q1 := ho.h k k0 k1 i hi
    have q2 := thickness_s W.hL W.hT W.hH W.g W.g' W.prm (hs.h k k0 k1) (hs.vn k k0 k1) i hi
    beta_reduce at q1 q2
    rw [a1, b1, W.prm.dis_h, q1, q2]
    split_ifs <;> ring
  · beta_reduce
    have q1 := ho.vn k k0 k1 i h0 h1
    have q2 := velocity_s W.hL W.hT W.hH W.g W.g' W.prm k0 k1 W.f W.f' (hs.h k k0 k1) (hs.vn k k0 k1)
      i h0 h1
    beta_reduce at q1 q2
    rw [eT] at q2
    rw [a2, b2, W.prm.dis_vn, q1, q2]
    split_ifs <;> ring
  · beta_reduce
    have q1 := ho.tr l l0 l1 k k0 k1 i hi
    have q2 := tracer_s W.hL W.hT W.hH W.g W.g' W.prm (hs.h k k0 k1) (hs.vn k k0 k1)
      (hs.tr l l0 l1 k k0 k1) i hi
    beta_reduce at q1 q2
    rw [a3, b3, q1, q2]
    split_ifs <;> ring

/-- tendency and state agree up to the factors -/
def PairS (σ : LatSym p.nx p.ny) (L T H : ℝ) (Q : Int → ℝ) (q q' : Fld ℝ × Fld ℝ) : Prop :=
  FldS σ (H / T) (L / T / T) (fun l => Q l / T) q.1 q'.1 ∧ FldS σ H (L / T) Q q.2 q'.2

theorem step_s (stp : Stepper) {t t' dt dt' : ℝ} (hd : dt' = T * dt) {q q' : Fld ℝ × Fld ℝ}
    (h : PairS σ L T H Q q q') :
    PairS σ L T H Q ((genSys p.dims sw noHook m).step t dt q stp)
      ((genSys p.dims sw' noHook m').step t' dt' q' stp) := by
  cases stp with
  | lsrk n =>
    simp only [Sys.step, Sys.lsrkStep]
    generalize List.range n = l
    induction l generalizing q q' with
    | nil => exact h
    | cons i l ih =>
      refine ih (q := Sys.lsrkStage _ (lsrkCoef n) t dt i q)
        (q' := Sys.lsrkStage _ (lsrkCoef n) t' dt' i q') ?_
      have := tend_s W .increment (t + (lsrkCoef n).c i * dt) (t' + (lsrkCoef n).c i * dt')
        (h.1.map ((lsrkCoef n).a i)) h.2
      exact ⟨this, h.2.axpy W.hT this (by rw [hd]; ring)⟩
  | rk4 =>
    simp only [Sys.step, Sys.rk4Step]
    have h0 := h
    have key : ∀ (l : List Nat) {r r' : Fld ℝ × Fld ℝ}, PairS σ L T H Q r r' → PairS σ L T H Q
        (l.foldl (fun r i => (genSys p.dims sw noHook m).rk4Stage rk4Coef t dt q.2 i r) r)
        (l.foldl (fun r i => (genSys p.dims sw' noHook m').rk4Stage rk4Coef t' dt' q'.2 i r) r') := by
      intro l
      induction l with
      | nil => exact fun h => h
      | cons i l ih =>
        intro r r' h
        refine ih (r := Sys.rk4Stage _ rk4Coef t dt q.2 i r)
          (r' := Sys.rk4Stage _ rk4Coef t' dt' q'.2 i r') ?_
        refine ⟨?_, h.2.axpy W.hT h.1 (by rw [hd]; ring)⟩
        simp only [Sys.rk4Stage]
        split_ifs
        · exact tend_s W .replace _ _ h.1 (h0.2.axpy W.hT h.1 (by rw [hd]; ring))
        · exact h.1
    exact key _ ⟨tend_s W .replace t t' h.1 h.2, h.2⟩

theorem run_s (stp : Stepper) {sched sched' : List (ℝ × ℝ)}
    (hs : List.Forall₂ (fun x y => y.2 = T * x.2) sched sched') {q q' : Fld ℝ × Fld ℝ}
    (h : PairS σ L T H Q q q') :
    PairS σ L T H Q ((genSys p.dims sw noHook m).run stp sched q)
      ((genSys p.dims sw' noHook m').run stp sched' q') := by
  unfold Sys.run
  induction hs generalizing q q' with
  | nil => exact h
  | cons hxy _ ih => exact ih (step_s W stp hxy h)

end

theorem FldS.local {A B : ℝ} {C : Int → ℝ} {x x' y y' : Fld ℝ} (h : FldS σ A B C x x')
    (e : EqFld p.dims y x) (e' : EqFld p.dims y' x') : FldS σ A B C y y' := by
  refine ⟨fun k k0 k1 i hi => ?_, fun k k0 k1 i h0 h1 => ?_, fun l l0 l1 k k0 k1 i hi => ?_⟩
  · have := h.h k k0 k1 i hi
    have hj := σ.cell hi
    beta_reduce at this ⊢
    rw [e'.h i k hi.1 hi.2 k0 k1, this, e.h _ k hj.1 hj.2 k0 k1]
  · have := h.vn k k0 k1 i h0 h1
    obtain ⟨s0, s1⟩ := σ.edge h0 h1
    beta_reduce at this ⊢
    rw [e'.vn i k h0 h1 k0 k1, this, e.vn _ k s0 s1 k0 k1]
  · have := h.tr l l0 l1 k k0 k1 i hi
    have hj := σ.cell hi
    beta_reduce at this ⊢
    rw [e'.tr l i k l0 l1 hi.1 hi.2 k0 k1, this, e.tr l _ k l0 l1 hj.1 hj.2 k0 k1]

/-- Executions of two such configurations. -/
theorem newRun_s {T H : ℝ} {Q : Int → ℝ} {prm prm' : Params ℝ} (hv : RunValid p) {dc : ℝ} (h2x : 2 ≤ p.nx)
    (h2y : 2 ≤ p.ny) (hdc : 0 < dc) (hL : 0 < L) (hT : T ≠ 0) (hH : H ≠ 0) (hr : Ready p dc prm m)
    (hr' : Ready p (L * dc) prm' m')
    (hs : SwSym σ.kap L T H (SWModel.ofParams prm) (SWModel.ofParams prm')) {stp : Stepper}
    {sched sched' : List (ℝ × ℝ)} (hd : List.Forall₂ (fun x y => y.2 = T * x.2) sched sched')
    {split split' : Bool} {m1 m1' : Mem ℝ}
    (h : FldS σ H (L / T) Q (m.fld .state) (m'.fld .state))
    (he : Exec p.dims (stp.ctor p.dims ++ stp.run p.dims ⟨defaultKernels p.dims.vl, split⟩
      (SWModel.ofParams prm) sched) m m1)
    (he' : Exec p.dims (stp.ctor p.dims ++ stp.run p.dims ⟨defaultKernels p.dims.vl, split'⟩
      (SWModel.ofParams prm') sched') m' m1') :
    FldS σ H (L / T) Q (m1.fld .state) (m1'.fld .state) := by
  obtain ⟨hd1, hc⟩ := ready_ok hv hr
  obtain ⟨-, hc'⟩ := ready_ok hv hr'
  have X := hr.hex hv.toValid
  have X' := hr'.hex hv.toValid
  have W : Twin σ dc L T H m m' (SWModel.ofParams prm) (SWModel.ofParams prm') :=
    ⟨hL, hT, hH, geo2_of_hex hv.toValid h2x h2y hdc X.1,
      geo2_of_hex hv.toValid h2x h2y (mul_pos hL hdc) X'.1, hs, fun v h0 h1 => X.2.1 v h0 h1,
      fun v h0 h1 => X'.2.1 v h0 h1⟩
  have a := (genSetup hd1 hc (hookOK_noHook (noHook_ofParams prm) p.dims m)).newRun he
  have a' := (genSetup hd1 hc' (hookOK_noHook (noHook_ofParams prm') p.dims m')).newRun he'
  refine FldS.local (run_s W stp hd (q := (zeroFld, m.fld .state)) (q' := (zeroFld, m'.fld .state))
    ⟨⟨fun k _ _ i _ => ?_, fun k _ _ i _ _ => ?_, fun l _ _ k _ _ i _ => ?_⟩, h⟩).2 a.2.2 a'.2.2 <;>
    simp [zeroFld]

/-- A new stepper can be run for any steps. -/
theorem run_exists (hv : RunValid p) {prm : Params ℝ} (hr : Ready p dc prm m) (stp : Stepper)
    (sched : List (ℝ × ℝ)) (split : Bool) : ∃ m1, Exec p.dims (stp.ctor p.dims ++
      stp.run p.dims ⟨defaultKernels p.dims.vl, split⟩ (SWModel.ofParams prm) sched) m m1 := by
  obtain ⟨hd, hc⟩ := ready_ok hv hr
  obtain ⟨m1, r, -⟩ := new_run_runs (genSetup hd hc (hookOK_noHook (noHook_ofParams prm) p.dims m)) stp
    sched
  exact ⟨m1, (r split).exec⟩

/-! ### C88: units -/

/-- The state in `m'` is the state in `m` in other units. -/
def Rescaled (d : Dims) (H V : ℝ) (Q : Int → ℝ) (s : StateId) (m m' : Mem ℝ) : Prop :=
  (∀ c k, 0 ≤ c → c < d.ncells → 0 ≤ k → k < d.nlayers →
    m'.real (.h_cell s) 0 c k = H * m.real (.h_cell s) 0 c k) ∧
  (∀ e k, 0 ≤ e → e < d.nedges → 0 ≤ k → k < d.nlayers →
    m'.real (.vn_edge s) 0 e k = V * m.real (.vn_edge s) 0 e k) ∧
  (∀ l c k, 0 ≤ l → l < d.ntracers → 0 ≤ c → c < d.ncells → 0 ≤ k → k < d.nlayers →
    m'.real (.tr_cell s) l c k = Q l * m.real (.tr_cell s) l c k)

theorem rescaled_iff {H V : ℝ} {Q : Int → ℝ} {s : StateId} : Rescaled p.dims H V Q s m m' ↔
    FldS (LatSym.id p.nx p.ny) H V Q (m.fld s) (m'.fld s) := by
  constructor
  · rintro ⟨a, b, c⟩
    refine ⟨fun k k0 k1 i hi => a i k hi.1 hi.2 k0 k1, fun k k0 k1 i h0 h1 => ?_,
      fun l l0 l1 k k0 k1 i hi => c l i k l0 l1 hi.1 hi.2 k0 k1⟩
    have := b i k h0 h1 k0 k1
    show m'.real (.vn_edge s) 0 i k = V * (1 * m.real (.vn_edge s) 0 i k)
    rw [this, one_mul]
  · intro h
    refine ⟨fun i k h0 h1 k0 k1 => h.h k k0 k1 i ⟨h0, h1⟩, fun i k h0 h1 k0 k1 => ?_,
      fun l i k l0 l1 h0 h1 k0 k1 => h.tr l l0 l1 k k0 k1 i ⟨h0, h1⟩⟩
    have := h.vn k k0 k1 i h0 h1
    exact this.trans (congrArg (V * ·) (one_mul _))

theorem lt_scale {a x : ℝ} (ha : 0 < a) : Scalar.lt (lit 0 : ℝ) (a * x) = Scalar.lt (lit 0 : ℝ) x := by
  rw [Bool.eq_iff_iff, slt_real, slt_real, lit_real]
  simp [ha]

/-- The result of a run does not depend on the units.  With lengths in units `L` times smaller, times
in units `T` times smaller, layer thicknesses in units `H` times smaller and the content of tracer `l`
in units `Q l` times smaller, every input with a dimension is converted, and the run of any stepper
for any time steps gives the converted result. -/
theorem C88_units (hv : RunValid p) (h2x : 2 ≤ p.nx) (h2y : 2 ≤ p.ny) {dc L T H : ℝ} {Q : Int → ℝ}
    (hdc : 0 < dc) (hL : 0 < L) (hT : 0 < T) (hH : 0 < H) {prm prm' : Params ℝ}
    (hf : prm'.f0 = prm.f0 / T) (hg : prm'.grav = L ^ 2 / (T ^ 2 * H) * prm.grav)
    (hn2 : prm'.visc_del2 = L ^ 2 / T * prm.visc_del2) (hn4 : prm'.visc_del4 = L ^ 4 / T * prm.visc_del4)
    (hk2 : prm'.eddy_diff2 = L ^ 2 / T * prm.eddy_diff2)
    (hk4 : prm'.eddy_diff4 = L ^ 4 / T * prm.eddy_diff4) (hdh : prm'.disable_h = prm.disable_h)
    (hdv : prm'.disable_vn = prm.disable_vn) {m m' m1 m1' : Mem ℝ} (hr : Ready p dc prm m)
    (hr' : Ready p (L * dc) prm' m') {stp : Stepper} {sched sched' : List (ℝ × ℝ)}
    (hd : List.Forall₂ (fun x y => y.2 = T * x.2) sched sched') {split split' : Bool}
    (h : Rescaled p.dims H (L / T) Q .state m m')
    (he : Exec p.dims (stp.ctor p.dims ++ stp.run p.dims ⟨defaultKernels p.dims.vl, split⟩
      (SWModel.ofParams prm) sched) m m1)
    (he' : Exec p.dims (stp.ctor p.dims ++ stp.run p.dims ⟨defaultKernels p.dims.vl, split'⟩
      (SWModel.ofParams prm') sched') m' m1') :
    Rescaled p.dims H (L / T) Q .state m1 m1' := by
  have p2 : 0 < L ^ 2 / T := by positivity
  have p4 : 0 < L ^ 4 / T := by positivity
  refine rescaled_iff.2 (newRun_s hv h2x h2y hdc hL hT.ne' hH.ne' hr hr' ?_ hd (rescaled_iff.1 h) he he')
  refine ⟨?_, hg, fun _ => hn2, fun _ => hn4, fun _ => hk2, fun _ => hk4, hdh, hdv, rfl, rfl, rfl, rfl,
    ?_, ?_, rfl, ?_, ?_⟩
  · show prm'.f0 = 1 / T * prm.f0
    rw [hf]; ring
  · show Scalar.lt (lit 0) prm'.visc_del2 = _
    rw [hn2, lt_scale p2]; rfl
  · show Scalar.lt (lit 0) prm'.visc_del4 = _
    rw [hn4, lt_scale p4]; rfl
  · show Scalar.lt (lit 0) prm'.eddy_diff2 = _
    rw [hk2, lt_scale p2]; rfl
  · show Scalar.lt (lit 0) prm'.eddy_diff4 = _
    rw [hk4, lt_scale p4]; rfl

/-- Any units (say from kilometres and days to metres and seconds), any initial state and parameters. -/
example (L T H : ℝ) (hL : 0 < L) (hT : 0 < T) (hH : 0 < H) (f0 g n2 n4 k2 k4 : ℝ) (x : Fld ℝ)
    (split : Bool) (dt : ℝ) : ∃ (prm' : Params ℝ) (m m' m1 m1' : Mem ℝ), Ready p46t 10 ⟨f0, g, n2, n4, k2, k4, false, false⟩ m ∧
      Ready p46t (L * 10) prm' m' ∧ m.fld .state = x ∧ prm'.f0 = f0 / T ∧
      prm'.grav = L ^ 2 / (T ^ 2 * H) * g ∧
      Rescaled p46t.dims H (L / T) (fun l => 7) .state m m' ∧
      Exec p46t.dims (Stepper.rk4.ctor p46t.dims ++ Stepper.rk4.run p46t.dims
        ⟨defaultKernels p46t.dims.vl, split⟩ (SWModel.ofParams ⟨f0, g, n2, n4, k2, k4, false, false⟩)
        [(0, dt), (dt, dt)]) m m1 ∧
      Exec p46t.dims (Stepper.rk4.ctor p46t.dims ++ Stepper.rk4.run p46t.dims
        ⟨defaultKernels p46t.dims.vl, split⟩ (SWModel.ofParams prm')
        [(0, T * dt), (T * dt, T * dt)]) m' m1' ∧
      Rescaled p46t.dims H (L / T) (fun l => 7) .state m1 m1' := by
  obtain ⟨prm', e⟩ : ∃ q : Params ℝ, q = ⟨f0 / T, L ^ 2 / (T ^ 2 * H) * g, L ^ 2 / T * n2,
    L ^ 4 / T * n4, L ^ 2 / T * k2, L ^ 4 / T * k4, false, false⟩ := ⟨_, rfl⟩
  obtain ⟨m, hr, hx, -⟩ := exists_ready p46t_run.toValid (10 : ℝ) ⟨f0, g, n2, n4, k2, k4, false, false⟩ x zeroFld
  obtain ⟨m', hr', hy, -⟩ := exists_ready p46t_run.toValid (L * 10 : ℝ) prm'
    ⟨fun c k => H * x.h c k, fun c k => L / T * x.vn c k, fun l c k => 7 * x.tr l c k⟩ zeroFld
  obtain ⟨m1, he⟩ := run_exists p46t_run hr .rk4 [(0, dt), (dt, dt)] split
  obtain ⟨m1', he'⟩ := run_exists p46t_run hr' .rk4 [(0, T * dt), (T * dt, T * dt)] split
  have h : Rescaled p46t.dims H (L / T) (fun l => 7) .state m m' := by
    refine ⟨fun c k _ _ _ _ => ?_, fun e k _ _ _ _ => ?_, fun l c k _ _ _ _ _ _ => ?_⟩
    · exact (congrFun (congrFun (congrArg Fld.h hy) c) k).trans
        (congrArg (H * ·) (congrFun (congrFun (congrArg Fld.h hx) c) k).symm)
    · exact (congrFun (congrFun (congrArg Fld.vn hy) e) k).trans
        (congrArg (L / T * ·) (congrFun (congrFun (congrArg Fld.vn hx) e) k).symm)
    · exact (congrFun (congrFun (congrFun (congrArg Fld.tr hy) l) c) k).trans
        (congrArg (7 * ·) (congrFun (congrFun (congrFun (congrArg Fld.tr hx) l) c) k).symm)
  exact ⟨prm', m, m', m1, m1', hr, hr', hx, by rw [e], by rw [e], h, he, he',
    C88_units p46t_run (by decide) (by decide) (by norm_num) hL hT hH (by rw [e]) (by rw [e])
      (by rw [e]) (by rw [e]) (by rw [e]) (by rw [e]) (by rw [e]) (by rw [e]) hr hr'
      (.cons rfl (.cons rfl .nil)) h he he'⟩

/-! ### C89: time reversal -/

/-- Without viscosity and diffusion the model can be run backwards: reversing the velocity and the
rotation and stepping with `-dt` gives, after any number of steps of any stepper, the thickness and
the tracers of the forward run and the reversed velocity. -/
theorem C89_time_reversal (hv : RunValid p) (h2x : 2 ≤ p.nx) (h2y : 2 ≤ p.ny) {dc : ℝ} (hdc : 0 < dc)
    {prm prm' : Params ℝ} (n2 : prm.visc_del2 ≤ 0) (n4 : prm.visc_del4 ≤ 0) (k2 : prm.eddy_diff2 ≤ 0)
    (k4 : prm.eddy_diff4 ≤ 0) (hp : prm' = { prm with f0 := -prm.f0 }) {m m' m1 m1' : Mem ℝ}
    (hr : Ready p dc prm m) (hr' : Ready p dc prm' m') {stp : Stepper} {sched sched' : List (ℝ × ℝ)}
    (hd : List.Forall₂ (fun x y => y.2 = -x.2) sched sched') {split split' : Bool}
    (h : Rescaled p.dims 1 (-1) (fun _ => 1) .state m m')
    (he : Exec p.dims (stp.ctor p.dims ++ stp.run p.dims ⟨defaultKernels p.dims.vl, split⟩
      (SWModel.ofParams prm) sched) m m1)
    (he' : Exec p.dims (stp.ctor p.dims ++ stp.run p.dims ⟨defaultKernels p.dims.vl, split'⟩
      (SWModel.ofParams prm') sched') m' m1') :
    Rescaled p.dims 1 (-1) (fun _ => 1) .state m1 m1' := by
  subst hp
  have off : ∀ x : ℝ, x ≤ 0 → Scalar.lt (lit 0 : ℝ) x = false := fun x hx => by
    rw [Bool.eq_false_iff, ne_eq, slt_real, lit_real]
    push_cast
    exact not_lt.2 hx
  have e : (1 : ℝ) / -1 = -1 := by norm_num
  rw [← e] at h ⊢
  refine rescaled_iff.2 (newRun_s (L := 1) (T := -1) (H := 1) hv h2x h2y hdc one_pos (by norm_num)
    one_ne_zero hr (by rw [one_mul]; exact hr') ?_ (hd.imp fun _ _ h => by rw [h]; ring)
    (rescaled_iff.1 h) he he')
  refine ⟨?_, ?_, ?_, ?_, ?_, ?_, rfl, rfl, rfl, rfl, rfl, rfl, rfl, rfl, rfl, rfl, rfl⟩
  · show -prm.f0 = 1 / -1 * prm.f0
    ring
  · show prm.grav = 1 ^ 2 / ((-1) ^ 2 * 1) * prm.grav
    norm_num
  · intro c
    exact absurd ((off _ n2).symm.trans c) (by decide)
  · intro c
    exact absurd ((off _ n4).symm.trans c) (by decide)
  · intro c
    exact absurd ((off _ k2).symm.trans c) (by decide)
  · intro c
    exact absurd ((off _ k4).symm.trans c) (by decide)

/-- Any initial state of the rotating inviscid model. -/
example (f0 g : ℝ) (x : Fld ℝ) (split : Bool) (dt : ℝ) :
    ∃ m m' m1 m1' : Mem ℝ, Ready p46t 1 ⟨f0, g, 0, 0, 0, 0, false, false⟩ m ∧
      Ready p46t 1 ⟨-f0, g, 0, 0, 0, 0, false, false⟩ m' ∧ m.fld .state = x ∧
      Exec p46t.dims (Stepper.rk4.ctor p46t.dims ++ Stepper.rk4.run p46t.dims
        ⟨defaultKernels p46t.dims.vl, split⟩ (SWModel.ofParams ⟨f0, g, 0, 0, 0, 0, false, false⟩)
        [(0, dt), (dt, dt)]) m m1 ∧
      Exec p46t.dims (Stepper.rk4.ctor p46t.dims ++ Stepper.rk4.run p46t.dims
        ⟨defaultKernels p46t.dims.vl, split⟩ (SWModel.ofParams ⟨-f0, g, 0, 0, 0, 0, false, false⟩)
        [(0, -dt), (-dt, -dt)]) m' m1' ∧
      Rescaled p46t.dims 1 (-1) (fun _ => 1) .state m m' ∧
      Rescaled p46t.dims 1 (-1) (fun _ => 1) .state m1 m1' := by
  obtain ⟨m, hr, hx, -⟩ := exists_ready p46t_run.toValid (1 : ℝ) ⟨f0, g, 0, 0, 0, 0, false, false⟩ x zeroFld
  obtain ⟨m', hr', hy, -⟩ := exists_ready p46t_run.toValid (1 : ℝ) ⟨-f0, g, 0, 0, 0, 0, false, false⟩
    ⟨fun c k => 1 * x.h c k, fun c k => -1 * x.vn c k, fun l c k => 1 * x.tr l c k⟩ zeroFld
  obtain ⟨m1, he⟩ := run_exists p46t_run hr .rk4 [(0, dt), (dt, dt)] split
  obtain ⟨m1', he'⟩ := run_exists p46t_run hr' .rk4 [(0, -dt), (-dt, -dt)] split
  have h : Rescaled p46t.dims 1 (-1) (fun _ => 1) .state m m' := by
    refine ⟨fun c k _ _ _ _ => ?_, fun e k _ _ _ _ => ?_, fun l c k _ _ _ _ _ _ => ?_⟩
    · exact (congrFun (congrFun (congrArg Fld.h hy) c) k).trans
        (congrArg (1 * ·) (congrFun (congrFun (congrArg Fld.h hx) c) k).symm)
    · exact (congrFun (congrFun (congrArg Fld.vn hy) e) k).trans
        (congrArg (-1 * ·) (congrFun (congrFun (congrArg Fld.vn hx) e) k).symm)
    · exact (congrFun (congrFun (congrFun (congrArg Fld.tr hy) l) c) k).trans
        (congrArg (1 * ·) (congrFun (congrFun (congrFun (congrArg Fld.tr hx) l) c) k).symm)
  exact ⟨m, m', m1, m1', hr, hr', hx, he, he', h,
    C89_time_reversal p46t_run (by decide) (by decide) one_pos le_rfl le_rfl le_rfl le_rfl rfl hr hr'
      (.cons rfl (.cons rfl .nil)) h he he'⟩

/-! ### C90: half turn and mirror image -/

/-- The state in `m'` is the state in `m` after a half turn (or in the mirror): a cell has the values
that `m` has at its image, and the flow out of a cell through a side is the flow that `m` has out of
the image through the image of the side. -/
def Turned (d : Dims) (mir : Bool) (τ : Int → Int) (s : StateId) (m m' : Mem ℝ) : Prop :=
  (∀ c k, 0 ≤ c → c < d.ncells → 0 ≤ k → k < d.nlayers →
    m'.real (.h_cell s) 0 c k = m.real (.h_cell s) 0 (τ c) k) ∧
  (∀ c j k, 0 ≤ c → c < d.ncells → 0 ≤ j → j < 6 → 0 ≤ k → k < d.nlayers →
    m'.real .edge_sign_on_cell 0 c j * m'.real (.vn_edge s) 0 (m'.int .edges_on_cell c j) k =
      m.real .edge_sign_on_cell 0 (τ c) (turnJ mir j) *
        m.real (.vn_edge s) 0 (m.int .edges_on_cell (τ c) (turnJ mir j)) k) ∧
  (∀ l c k, 0 ≤ l → l < d.ntracers → 0 ≤ c → c < d.ncells → 0 ≤ k → k < d.nlayers →
    m'.real (.tr_cell s) l c k = m.real (.tr_cell s) l (τ c) k)

theorem turned_iff {mir : Bool} {τ : Int → Int} (ht : IsTurn p.nx p.ny mir τ) (hny : p.ny % 2 = 0)
    (g : Geo2 p.nx p.ny p.dims.nlayers dc m.mesh) (g' : Geo2 p.nx p.ny p.dims.nlayers dc m'.mesh)
    {s : StateId} : Turned p.dims mir τ s m m' ↔
      FldS (ht.lat g.hnx hny) 1 1 (fun _ => 1) (m.fld s) (m'.fld s) := by
  have hs : ∀ j, sg j * sg j = 1 := fun j => by unfold sg; split_ifs <;> norm_num
  have eoc : ∀ {c j}, IsCell p.nx p.ny c → 0 ≤ j → j < 6 →
      m.int .edges_on_cell c j = E p.nx p.ny c j := fun h h0 h6 => g.eoc _ h _ h0 h6
  have eoc' : ∀ {c j}, IsCell p.nx p.ny c → 0 ≤ j → j < 6 →
      m'.int .edges_on_cell c j = E p.nx p.ny c j := fun h h0 h6 => g'.eoc _ h _ h0 h6
  have sc : ∀ {c j}, IsCell p.nx p.ny c → 0 ≤ j → j < 6 →
      m.real .edge_sign_on_cell 0 c j = sg j := fun h h0 h6 => g.signC _ h _ h0 h6
  have sc' : ∀ {c j}, IsCell p.nx p.ny c → 0 ≤ j → j < 6 →
      m'.real .edge_sign_on_cell 0 c j = sg j := fun h h0 h6 => g'.signC _ h _ h0 h6
  constructor
  · rintro ⟨a, b, c⟩
    refine ⟨fun k k0 k1 i hi => (a i k hi.1 hi.2 k0 k1).trans (one_mul _).symm, fun k k0 k1 i h0 h1 => ?_,
      fun l l0 l1 k k0 k1 i hi => (c l i k l0 l1 hi.1 hi.2 k0 k1).trans (one_mul _).symm⟩
    have hc := isCell_edge h0 h1
    have r := turnJ_range mir (i % 3)
    have := b (i / 3) (i % 3) k hc.1 hc.2 (by omega) (by omega) k0 k1
    rw [eoc' hc (by omega) (by omega), eoc (ht.cell hc) r.1 r.2, sc' hc (by omega) (by omega),
      sc (ht.cell hc) r.1 r.2, ← eq_E_lo] at this
    show m'.real (.vn_edge s) 0 i k = 1 * (turnEps mir i * m.real (.vn_edge s) 0 (turnE p.nx p.ny mir τ i) k)
    have e1 : turnEps mir i = sg (i % 3) * sg (turnJ mir (i % 3)) := by
      conv_lhs => rw [eq_E_lo (nx := p.nx) (ny := p.ny) i]
      exact eps_E g.hnx hny (by omega) (by omega)
    rw [e1, one_mul]
    unfold turnE
    linear_combination sg (i % 3) * this - m'.real (.vn_edge s) 0 i k * hs (i % 3)
  · intro h
    refine ⟨fun i k h0 h1 k0 k1 => (h.h k k0 k1 i ⟨h0, h1⟩).trans (one_mul _), fun c j k h0 h1 j0 j1 k0 k1 => ?_,
      fun l i k l0 l1 h0 h1 k0 k1 => (h.tr l l0 l1 k k0 k1 i ⟨h0, h1⟩).trans (one_mul _)⟩
    have hc : IsCell p.nx p.ny c := ⟨h0, h1⟩
    have r := turnJ_range mir j
    have hE := E_range g.hnx hc j j0 j1
    have := h.vn k k0 k1 _ hE.1 hE.2
    rw [eoc' hc j0 j1, eoc (ht.cell hc) r.1 r.2, sc' hc j0 j1, sc (ht.cell hc) r.1 r.2]
    have : m'.real (.vn_edge s) 0 (E p.nx p.ny c j) k = 1 * (turnEps mir (E p.nx p.ny c j) *
        m.real (.vn_edge s) 0 (turnE p.nx p.ny mir τ (E p.nx p.ny c j)) k) := this
    rw [this, eps_E g.hnx hny j0 j1, turnE_E g.hnx hny ht hc j0 j1]
    linear_combination (sg (turnJ mir j) *
      m.real (.vn_edge s) 0 (E p.nx p.ny (τ c) (turnJ mir j)) k) * hs j

theorem turn_run (hv : RunValid p) (h2x : 2 ≤ p.nx) (h2y : 2 ≤ p.ny) (hny : p.ny % 2 = 0) {dc : ℝ}
    (hdc : 0 < dc) {mir : Bool} {τ : Int → Int} (ht : IsTurn p.nx p.ny mir τ) {prm prm' : Params ℝ}
    (hp : prm' = { prm with f0 := if mir then -prm.f0 else prm.f0 }) {m m' m1 m1' : Mem ℝ}
    (hr : Ready p dc prm m) (hr' : Ready p dc prm' m') {stp : Stepper} {sched : List (ℝ × ℝ)}
    {split split' : Bool} (h : Turned p.dims mir τ .state m m')
    (he : Exec p.dims (stp.ctor p.dims ++ stp.run p.dims ⟨defaultKernels p.dims.vl, split⟩
      (SWModel.ofParams prm) sched) m m1)
    (he' : Exec p.dims (stp.ctor p.dims ++ stp.run p.dims ⟨defaultKernels p.dims.vl, split'⟩
      (SWModel.ofParams prm') sched) m' m1') : Turned p.dims mir τ .state m1 m1' := by
  subst hp
  have G := fun {q : Params ℝ} {m : Mem ℝ} (hr : Ready p dc q m) =>
    geo2_of_hex hv.toValid h2x h2y hdc (hr.hex hv.toValid).1
  have S := fun {q : Params ℝ} {m m1 : Mem ℝ} {split : Bool} (hr : Ready p dc q m)
    (he : Exec p.dims (stp.ctor p.dims ++ stp.run p.dims ⟨defaultKernels p.dims.vl, split⟩
      (SWModel.ofParams q) sched) m m1) =>
    ((genSetup (ready_ok hv hr).1 (ready_ok hv hr).2
      (hookOK_noHook (noHook_ofParams q) p.dims m)).newRun he).1
  refine (turned_iff ht hny (G (hr.static (S hr he))) (G (hr'.static (S hr' he')))).2 ?_
  have h := (turned_iff ht hny (G hr) (G hr')).1 h
  have e : (1 : ℝ) / 1 = 1 := by norm_num
  have key := newRun_s (L := 1) (T := 1) (H := 1) (Q := fun _ => 1)
    (σ := ht.lat hv.nx_pos hny) hv h2x h2y hdc one_pos one_ne_zero
    one_ne_zero hr (by rw [one_mul]; exact hr') ?_ (sched := sched) (sched' := sched)
    (List.forall₂_same.2 fun _ _ => (one_mul _).symm) (by rw [e]; exact h) he he'
  · rw [e] at key; exact key
  · refine ⟨?_, ?_, fun _ => ?_, fun _ => ?_, fun _ => ?_, fun _ => ?_, rfl, rfl, rfl, rfl, rfl, rfl, rfl,
      rfl, rfl, rfl, rfl⟩
    · show (if mir = true then -prm.f0 else prm.f0) = (if mir = true then -1 else 1) / 1 * prm.f0
      split_ifs <;> ring
    · show prm.grav = 1 ^ 2 / (1 ^ 2 * 1) * prm.grav
      norm_num
    · show prm.visc_del2 = 1 ^ 2 / 1 * prm.visc_del2
      norm_num
    · show prm.visc_del4 = 1 ^ 4 / 1 * prm.visc_del4
      norm_num
    · show prm.eddy_diff2 = 1 ^ 2 / 1 * prm.eddy_diff2
      norm_num
    · show prm.eddy_diff4 = 1 ^ 4 / 1 * prm.eddy_diff4
      norm_num

/-- A run commutes with the half turn of the domain. -/
theorem C90_half_turn (hv : RunValid p) (h2x : 2 ≤ p.nx) (h2y : 2 ≤ p.ny) (hny : p.ny % 2 = 0) {dc : ℝ}
    (hdc : 0 < dc) {prm : Params ℝ} {m m' m1 m1' : Mem ℝ} (hr : Ready p dc prm m)
    (hr' : Ready p dc prm m') {stp : Stepper} {sched : List (ℝ × ℝ)} {split split' : Bool}
    (h : Turned p.dims false (halfTurn p.nx p.ny) .state m m')
    (he : Exec p.dims (stp.ctor p.dims ++ stp.run p.dims ⟨defaultKernels p.dims.vl, split⟩
      (SWModel.ofParams prm) sched) m m1)
    (he' : Exec p.dims (stp.ctor p.dims ++ stp.run p.dims ⟨defaultKernels p.dims.vl, split'⟩
      (SWModel.ofParams prm) sched) m' m1') : Turned p.dims false (halfTurn p.nx p.ny) .state m1 m1' :=
  turn_run hv h2x h2y hny hdc (halfTurn_turn hv.nx_pos hny) rfl hr hr' h he he'

/-- A run commutes with the mirror image, the rotation of the frame being reversed. -/
theorem C90_mirror (hv : RunValid p) (h2x : 2 ≤ p.nx) (h2y : 2 ≤ p.ny) (hny : p.ny % 2 = 0) {dc : ℝ}
    (hdc : 0 < dc) {prm prm' : Params ℝ} (hp : prm' = { prm with f0 := -prm.f0 })
    {m m' m1 m1' : Mem ℝ} (hr : Ready p dc prm m) (hr' : Ready p dc prm' m') {stp : Stepper}
    {sched : List (ℝ × ℝ)} {split split' : Bool} (h : Turned p.dims true (mirror p.nx) .state m m')
    (he : Exec p.dims (stp.ctor p.dims ++ stp.run p.dims ⟨defaultKernels p.dims.vl, split⟩
      (SWModel.ofParams prm) sched) m m1)
    (he' : Exec p.dims (stp.ctor p.dims ++ stp.run p.dims ⟨defaultKernels p.dims.vl, split'⟩
      (SWModel.ofParams prm') sched) m' m1') : Turned p.dims true (mirror p.nx) .state m1 m1' :=
  turn_run hv h2x h2y hny hdc (mirror_turn hv.nx_pos hny) hp hr hr' h he he'

/-- A state that is its own half turn stays so, and without rotation one that is its own mirror image. -/
theorem C90_symmetric_stays (hv : RunValid p) (h2x : 2 ≤ p.nx) (h2y : 2 ≤ p.ny) (hny : p.ny % 2 = 0)
    {dc : ℝ} (hdc : 0 < dc) {prm : Params ℝ} {m m1 : Mem ℝ} (hr : Ready p dc prm m) {stp : Stepper}
    {sched : List (ℝ × ℝ)} {split : Bool}
    (he : Exec p.dims (stp.ctor p.dims ++ stp.run p.dims ⟨defaultKernels p.dims.vl, split⟩
      (SWModel.ofParams prm) sched) m m1) :
    (Turned p.dims false (halfTurn p.nx p.ny) .state m m →
      Turned p.dims false (halfTurn p.nx p.ny) .state m1 m1) ∧
    (prm.f0 = 0 → Turned p.dims true (mirror p.nx) .state m m →
      Turned p.dims true (mirror p.nx) .state m1 m1) := by
  refine ⟨fun h => C90_half_turn hv h2x h2y hny hdc hr hr h he he, fun hf h =>
    C90_mirror hv h2x h2y hny hdc ?_ hr hr h he he⟩
  cases prm
  simp only at hf
  simp [hf]

/-- The renaming is the half turn about the center of cell 0, or the mirror image in the vertical line
through it: cell centers go where they should up to whole periods, and neighbours to neighbours. -/
theorem C90_geometry (hv : RunValid p) (hny : p.ny % 2 = 0) {dc : ℝ} {prm : Params ℝ} {m : Mem ℝ}
    (hr : Ready p dc prm m) {c : Int} (h0 : 0 ≤ c) (h1 : c < p.dims.ncells) :
    (0 ≤ halfTurn p.nx p.ny c ∧ halfTurn p.nx p.ny c < p.dims.ncells) ∧
    (0 ≤ mirror p.nx c ∧ mirror p.nx c < p.dims.ncells) ∧
    (∃ a : Int, m.real .x_cell 0 (halfTurn p.nx p.ny c) 0 - m.real .x_cell 0 0 0 =
      -(m.real .x_cell 0 c 0 - m.real .x_cell 0 0 0) + a * periodX p.nx dc) ∧
    (∃ b : Int, m.real .y_cell 0 (halfTurn p.nx p.ny c) 0 - m.real .y_cell 0 0 0 =
      -(m.real .y_cell 0 c 0 - m.real .y_cell 0 0 0) + b * periodY p.ny dc) ∧
    (∃ a : Int, m.real .x_cell 0 (mirror p.nx c) 0 - m.real .x_cell 0 0 0 =
      -(m.real .x_cell 0 c 0 - m.real .x_cell 0 0 0) + a * periodX p.nx dc) ∧
    m.real .y_cell 0 (mirror p.nx c) 0 = m.real .y_cell 0 c 0 ∧
    (∀ j, 0 ≤ j → j < 6 →
      m.int .cells_on_cell (halfTurn p.nx p.ny c) ((j + 3) % 6) =
        halfTurn p.nx p.ny (m.int .cells_on_cell c j) ∧
      m.int .cells_on_cell (mirror p.nx c) ((3 - j) % 6) = mirror p.nx (m.int .cells_on_cell c j)) := by
  have hnx := hv.nx_pos
  have X := (hr.hex hv.toValid).1
  have hc : IsCell p.nx p.ny c := ⟨h0, h1⟩
  have tr := halfTurn_turn (nx := p.nx) hnx hny
  have tm := mirror_turn (nx := p.nx) hnx hny
  have hz : IsCell p.nx p.ny 0 := ⟨le_rfl, by have := hc.1; have := hc.2; omega⟩
  have c0 : col p.nx 0 = 0 := by simp [col]
  have r0 : row p.nx 0 = 0 := by simp [row]
  obtain ⟨i, r, i0, i1, s0, s1, rfl⟩ := exists_coords hnx hc
  have mi := mirI_range (r := r) i0 i1
  have eh : halfTurn p.nx p.ny (cid p.nx i r) = cid p.nx (mirI p.nx i r) (ng p.ny r) := by
    unfold halfTurn; rw [col_cid i0 i1, row_cid i0 i1]
  have em : mirror p.nx (cid p.nx i r) = cid p.nx (mirI p.nx i r) r := by
    unfold mirror; rw [col_cid i0 i1, row_cid i0 i1]
  have hg : ng p.ny r % 2 = r % 2 := by unfold ng; split_ifs <;> omega
  have x0 : xC p.nx dc 0 = dc / 2 := by
    unfold xC; rw [c0, r0]; simp [lit_real]
  have y0 : yC p.nx dc 0 = dc * √3 / 2 := by
    unfold yC; rw [r0]; simp [lit_real]
  have xh : ∀ r', r' % 2 = r % 2 → ∃ a : Int, xC p.nx dc (cid p.nx (mirI p.nx i r) r') - dc / 2 =
      -(xC p.nx dc (cid p.nx i r) - dc / 2) + a * periodX p.nx dc := by
    intro r' e
    unfold xC periodX
    rw [col_cid mi.1 mi.2, row_cid mi.1 mi.2, col_cid i0 i1, row_cid i0 i1, e]
    simp only [lit_real]
    unfold mirI ng
    split_ifs with a b
    · exact ⟨0, by rw [b]; push_cast; ring⟩
    · exact ⟨1, by push_cast; ring⟩
    · exact ⟨1, by push_cast; ring⟩
  refine ⟨tr.cell hc, tm.cell hc, ?_, ?_, ?_, ?_, fun j j0 j6 => ⟨?_, ?_⟩⟩
  · rw [X.x_cell _ (tr.cell hc), X.x_cell _ hz, X.x_cell _ hc, x0, eh]
    exact xh _ hg
  · rw [X.y_cell _ (tr.cell hc), X.y_cell _ hz, X.y_cell _ hc, y0, eh]
    unfold yC periodY
    rw [row_cid mi.1 mi.2, row_cid i0 i1]
    simp only [lit_real]
    have e3 : (Scalar.sqrt ((3 : Int) : ℝ) : ℝ) = √3 := by
      show √((3 : Int) : ℝ) = √3
      norm_num
    rw [e3]
    unfold ng
    split_ifs with a
    · exact ⟨0, by rw [a]; push_cast; ring⟩
    · exact ⟨1, by push_cast; ring⟩
  · rw [X.x_cell _ (tm.cell hc), X.x_cell _ hz, X.x_cell _ hc, x0, em]
    exact xh _ rfl
  · rw [X.y_cell _ (tm.cell hc), X.y_cell _ hc, em]
    unfold yC
    rw [row_cid mi.1 mi.2, row_cid i0 i1]
  · rw [X.coc _ (tr.cell hc) _ (by omega) (by omega), X.coc _ hc j j0 j6]
    exact tr.nb hc j0 j6
  · rw [X.coc _ (tm.cell hc) _ (by omega) (by omega), X.coc _ hc j j0 j6]
    exact tm.nb hc j0 j6

/-- A moved copy of any state exists: the hypotheses of the two theorems can be met from every initial
state, and neither renaming is trivial. -/
example (mir : Bool) (f0 g n2 n4 k2 k4 : ℝ) (x : Fld ℝ) (split : Bool) (dt : ℝ) :
    ∃ m m' m1 m1' : Mem ℝ, Ready p46t 1 ⟨f0, g, n2, n4, k2, k4, false, false⟩ m ∧
      Ready p46t 1 ⟨if mir then -f0 else f0, g, n2, n4, k2, k4, false, false⟩ m' ∧ m.fld .state = x ∧
      Exec p46t.dims (Stepper.rk4.ctor p46t.dims ++ Stepper.rk4.run p46t.dims
        ⟨defaultKernels p46t.dims.vl, split⟩ (SWModel.ofParams ⟨f0, g, n2, n4, k2, k4, false, false⟩)
        [(0, dt), (dt, dt)]) m m1 ∧
      Exec p46t.dims (Stepper.rk4.ctor p46t.dims ++ Stepper.rk4.run p46t.dims
        ⟨defaultKernels p46t.dims.vl, split⟩
        (SWModel.ofParams ⟨if mir then -f0 else f0, g, n2, n4, k2, k4, false, false⟩)
        [(0, dt), (dt, dt)]) m' m1' ∧
      Turned p46t.dims mir (if mir then mirror 4 else halfTurn 4 6) .state m m' ∧
      Turned p46t.dims mir (if mir then mirror 4 else halfTurn 4 6) .state m1 m1' ∧
      halfTurn 4 6 1 = 3 ∧ halfTurn 4 6 5 = 22 ∧ mirror 4 5 = 6 := by
  have ht : IsTurn p46t.nx p46t.ny mir (if mir then mirror 4 else halfTurn 4 6) := by
    cases mir
    · exact halfTurn_turn (nx := 4) (ny := 6) (by decide) (by decide)
    · exact mirror_turn (nx := 4) (ny := 6) (by decide) (by decide)
  have hnx : 1 ≤ p46t.nx := by decide
  have hny : p46t.ny % 2 = 0 := by decide
  obtain ⟨m, hr, hx, -⟩ := exists_ready p46t_run.toValid (1 : ℝ) ⟨f0, g, n2, n4, k2, k4, false, false⟩ x zeroFld
  obtain ⟨m', hr', hy, -⟩ := exists_ready p46t_run.toValid (1 : ℝ)
    ⟨if mir then -f0 else f0, g, n2, n4, k2, k4, false, false⟩
    ⟨fun c k => 1 * x.h ((ht.lat hnx hny).c c) k,
      fun e k => 1 * ((ht.lat hnx hny).eps e * x.vn ((ht.lat hnx hny).e e) k),
      fun l c k => 1 * x.tr l ((ht.lat hnx hny).c c) k⟩ zeroFld
  obtain ⟨m1, he⟩ := run_exists p46t_run hr .rk4 [(0, dt), (dt, dt)] split
  obtain ⟨m1', he'⟩ := run_exists p46t_run hr' .rk4 [(0, dt), (dt, dt)] split
  have G := fun {q : Params ℝ} {m : Mem ℝ} (hr : Ready p46t 1 q m) =>
    geo2_of_hex p46t_run.toValid (by decide) (by decide) one_pos (hr.hex p46t_run.toValid).1
  have h : Turned p46t.dims mir (if mir then mirror 4 else halfTurn 4 6) .state m m' := by
    refine (turned_iff ht hny (G hr) (G hr')).2 ?_
    rw [hx, hy]
    exact ⟨fun _ _ _ _ _ => rfl, fun _ _ _ _ _ _ => rfl, fun _ _ _ _ _ _ _ _ => rfl⟩
  exact ⟨m, m', m1, m1', hr, hr', hx, he, he', h,
    turn_run p46t_run (by decide) (by decide) hny one_pos ht rfl hr hr' h he he', by decide, by decide,
    by decide⟩

end Props
end
end Omega
