import Verif.Model.Hierarchical
import Verif.Refine.Tendency

/-!
# Kernels of the single-file implementation as functions
-/

set_option linter.unusedSectionVars false
set_option linter.unusedVariables false

namespace Omega
namespace Refine

open Prog Model

variable {R : Type} [Scalar R]

/-! ### The functions computed by the kernels of `Model/Hierarchical.lean` -/

namespace HFn

variable (M : Mesh R)

/-- `shallow_water_hierarchical.cpp:163-178` (first accumulator) -/
def ke (vn : Int → R) (c : Int) : R :=
  foldI (M.neoc c) (lit 0) (fun j s =>
    s + M.dv (M.eoc c j) * M.dc (M.eoc c j) * vn (M.eoc c j) * vn (M.eoc c j) * quarter) *
      (lit 1 / M.areaCell c)
/-- `shallow_water_hierarchical.cpp:164-177` (second accumulator), `:406-415` -/
def div (vn : Int → R) (c : Int) : R :=
  foldI (M.neoc c) (lit 0) (fun j s =>
    s + M.dv (M.eoc c j) * M.signC c j * vn (M.eoc c j)) * (lit 1 / M.areaCell c)
/-- `shallow_water_hierarchical.cpp:211-218`, `:427-437` -/
def rvort (vn : Int → R) (v : Int) : R :=
  foldI 3 (lit 0) (fun j s => s + M.dc (M.eov v j) * M.signV v j * vn (M.eov v j)) *
    (lit 1 / M.areaTri v)
/-- `shallow_water_hierarchical.cpp:220-225` -/
def hvert (h : Int → R) (v : Int) : R :=
  foldI 3 (lit 0) (fun j s => s + M.kite v j * h (M.cov v j)) * (lit 1 / M.areaTri v)
/-- `shallow_water_hierarchical.cpp:229` -/
def nrv (h vn : Int → R) (v : Int) : R := rvort M vn v * (lit 1 / hvert M h v)
/-- `shallow_water_hierarchical.cpp:230` -/
def npv (h f : Int → R) (v : Int) : R := f v * (lit 1 / hvert M h v)
/-- `shallow_water_hierarchical.cpp:258-263` -/
def hmean (h : Int → R) (e : Int) : R := foldI 2 (lit 0) (fun j s => s + h (M.coe e j)) * half
/-- `shallow_water_hierarchical.cpp:265-273` -/
def vedge (x : Int → R) (e : Int) : R := foldI 2 (lit 0) (fun j s => s + x (M.voe e j)) * half
/-- `shallow_water_hierarchical.cpp:305-320` -/
def htend (hf vn : Int → R) (c : Int) : R :=
  -foldI (M.neoc c) (lit 0) (fun j s =>
    s + M.dv (M.eoc c j) * M.signC c j * hf (M.eoc c j) * vn (M.eoc c j)) * (lit 1 / M.areaCell c)
/-- `shallow_water_hierarchical.cpp:450-477` -/
def vt0 (grav : R) (nrv nf hf vn ke h : Int → R) (e : Int) : R :=
  foldI (M.neoe e) (lit 0) (fun j s => s + M.woe e j * hf (M.eoe e j) * vn (M.eoe e j) *
    ((nrv e + nf e + nrv (M.eoe e j) + nf (M.eoe e j)) * half)) -
  (ke (M.coe e 1) - ke (M.coe e 0) + grav * (h (M.coe e 1) - h (M.coe e 0))) * (lit 1 / M.dc e)
/-- `shallow_water_hierarchical.cpp:495-497`, `:507-511` -/
def lap (div rv : Int → R) (e : Int) : R :=
  (div (M.coe e 1) - div (M.coe e 0)) * (lit 1 / M.dc e) -
    (rv (M.voe e 1) - rv (M.voe e 0)) * (lit 1 / M.dv e)
/-- `shallow_water_hierarchical.cpp:488-513` -/
def vt (prm : Params R) (k : Int) (nrv nf hf vn ke h div rv d2div d2rv : Int → R) (e : Int) : R :=
  (fun t => if Scalar.lt (lit 0) prm.visc_del4 = true then
      t - prm.visc_del4 * M.sdel4 e * lap M d2div d2rv e * M.mask e k else t)
  ((fun t => if Scalar.lt (lit 0) prm.visc_del2 = true then
      t + prm.visc_del2 * M.sdel2 e * lap M div rv e * M.mask e k else t)
    (vt0 M prm.grav nrv nf hf vn ke h e))
/-- `shallow_water_hierarchical.cpp:559-577` -/
def trdel2 (ntr hm : Int → R) (c : Int) : R :=
  foldI (M.neoc c) (lit 0) (fun j s =>
    s + M.dv (M.eoc c j) * M.signC c j * hm (M.eoc c j) * M.sdel2 (M.eoc c j) *
      ((ntr (M.coe (M.eoc c j) 1) - ntr (M.coe (M.eoc c j) 0)) * (lit 1 / M.dc (M.eoc c j)))) *
    (lit 1 / M.areaCell c)
/-- flux of one edge, `shallow_water_hierarchical.cpp:596-623` -/
def trflux (prm : Params R) (hf hm vn ntr d2 : Int → R) (e : Int) : R :=
  (fun t => if Scalar.lt (lit 0) prm.eddy_diff4 = true then
      t - prm.eddy_diff4 * ((d2 (M.coe e 1) - d2 (M.coe e 0)) * (lit 1 / M.dc e)) * M.sdel4 e else t)
  ((fun t => if Scalar.lt (lit 0) prm.eddy_diff2 = true then
      t + prm.eddy_diff2 * hm e * ((ntr (M.coe e 1) - ntr (M.coe e 0)) * (lit 1 / M.dc e)) else t)
    (-hf e * ((ntr (M.coe e 0) + ntr (M.coe e 1)) * half) * vn e))
/-- `shallow_water_hierarchical.cpp:590-636` -/
def trtend (prm : Params R) (hf hm vn ntr d2 : Int → R) (c : Int) : R :=
  foldI (M.neoc c) (lit 0) (fun j s => s + M.dv (M.eoc c j) * M.signC c j *
    trflux M prm hf hm vn ntr d2 (M.eoc c j)) * (lit 1 / M.areaCell c)
/-- `shallow_water_hierarchical.cpp:694-705` -/
def linH (h0 : R) (vn : Int → R) (c : Int) : R :=
  -h0 * foldI (M.neoc c) (lit 0) (fun j s =>
    s + M.dv (M.eoc c j) * M.signC c j * vn (M.eoc c j)) / M.areaCell c
/-- `shallow_water_hierarchical.cpp:724-739` -/
def linV (grav : R) (f h vn : Int → R) (e : Int) : R :=
  f e * foldI (M.neoe e) (lit 0) (fun j s => s + M.woe e j * vn (M.eoe e j)) -
    grav * ((h (M.coe e 1) - h (M.coe e 0)) / M.dc e)

end HFn

/-- result of a tendency kernel -/
def putm (mode : AddMode) (old x : R) : R :=
  match mode with
  | .increment => old + x
  | .replace => x

/-! ### Launches with one iteration per element -/

section

variable {d : Dims} {m M : Mem R} {A : RArr → Bool} {perm : Loc → Perm} {G : Effect R}

theorem only2e {a : RArr} {n i k : Int} (hA : A a = true) (hext : a.ext d = (1, n, d.nlayers))
    (hi : 0 ≤ i ∧ i < n) (hk : 0 ≤ k ∧ k < d.nlayers) :
    Only (Reg d A own2e (i, k, 0)) a 0 i k := by
  intro l' i' k'
  simp only [Reg, own2e, RArr.InB, hext, Prod.mk.injEq, and_true]
  constructor
  · rintro ⟨-, h, rfl, rfl⟩
    exact ⟨by omega, rfl, rfl⟩
  · rintro ⟨rfl, rfl, rfl⟩
    exact ⟨hA, ⟨by omega, hi, hk⟩, rfl, rfl⟩

theorem only3e {a : RArr} {n l i k : Int} (hA : A a = true)
    (hext : a.ext d = (d.ntracers, n, d.nlayers)) (hl : 0 ≤ l ∧ l < d.ntracers)
    (hi : 0 ≤ i ∧ i < n) (hk : 0 ≤ k ∧ k < d.nlayers) :
    Only (Reg d A own3e (l, i, k)) a l i k := by
  intro l' i' k'
  simp only [Reg, own3e, RArr.InB, hext, Prod.mk.injEq]
  constructor
  · rintro ⟨-, -, h⟩; exact h
  · rintro ⟨rfl, rfl, rfl⟩
    exact ⟨hA, ⟨hl, hi, hk⟩, rfl, rfl, rfl⟩

theorem e_wr2 {P : Region} {a : RArr} {i k : Int} {v : R} {Q : Unit → Mem R → Prop}
    (hp : Good perm A P) (ho : Only P a 0 i k) (hb : a.InB d 0 i k)
    (h : Q () (M.setR a 0 i k v)) : Wp d perm (wr2 a i k v) M Q :=
  wp_wr2 hb (hp.own _ _ _ _ ((ho 0 i k).2 ⟨rfl, rfl, rfl⟩)) h
theorem e_wr3 {P : Region} {a : RArr} {l i k : Int} {v : R} {Q : Unit → Mem R → Prop}
    (hp : Good perm A P) (ho : Only P a l i k) (hb : a.InB d l i k)
    (h : Q () (M.setR a l i k v)) : Wp d perm (wr3 a l i k v) M Q :=
  wp_wr3 hb (hp.own _ _ _ _ ((ho l i k).2 ⟨rfl, rfl, rfl⟩)) h

theorem e_put2 {P : Region} {a : RArr} {i k : Int} {v : R} (mode : AddMode)
    (hp : Good perm A P) (ho : Only P a 0 i k) (hb : a.InB d 0 i k)
    {g : Int → Int → Int → R → R} (hg : ∀ o, g 0 i k o = putm mode o v) :
    Wp d perm (put2m mode a i k v) M (fun _ M' => M' = M.upd P (eff a g)) := by
  have hw := hp.own _ _ _ _ ((ho 0 i k).2 ⟨rfl, rfl, rfl⟩)
  cases mode with
  | increment =>
    refine wp_bind (wp_rd2 hb (by rw [hw]; decide) ?_)
    exact wp_wr2 hb hw (setR_upd1 ho _ (hg _).symm)
  | replace => exact wp_wr2 hb hw (setR_upd1 ho _ (hg _).symm)

theorem e_put3 {P : Region} {a : RArr} {l i k : Int} {v : R} (mode : AddMode)
    (hp : Good perm A P) (ho : Only P a l i k) (hb : a.InB d l i k)
    {g : Int → Int → Int → R → R} (hg : ∀ o, g l i k o = putm mode o v) :
    Wp d perm (put3m mode a l i k v) M (fun _ M' => M' = M.upd P (eff a g)) := by
  have hw := hp.own _ _ _ _ ((ho l i k).2 ⟨rfl, rfl, rfl⟩)
  cases mode with
  | increment =>
    refine wp_bind (wp_rd3 hb (by rw [hw]; decide) ?_)
    exact wp_wr3 hb hw (setR_upd1 ho _ (hg _).symm)
  | replace => exact wp_wr3 hb hw (setR_upd1 ho _ (hg _).symm)

/-- A launch over rows and layers. -/
theorem par2E_runs {n : Int} {body : Int → Int → Prog R Unit}
    (hA : ∀ a l i k, A a = true → a.InB d l i k → (0 ≤ i ∧ i < n) ∧ (0 ≤ k ∧ k < d.nlayers))
    (h : ∀ i k, (0 ≤ i ∧ i < n) → (0 ≤ k ∧ k < d.nlayers) →
      Op d m A own2e (i, k, 0) (body i k) G) :
    (par2 n d.nlayers body).Runs d m (m.upd (RegA d A) G) := by
  refine Cmd.runs_op own2e ?_ ?_
  · intro a l i k ha hb
    have := hA a l i k ha hb
    exact ⟨this.1, this.2, by simp [par2, own2e]⟩
  · rintro ⟨i, k, z⟩ ⟨h1, h2, h3⟩
    have hz : z = 0 := by simp only [par2] at h3; omega
    subst hz
    exact h i k h1 h2

/-- A launch over tracers, rows and layers. -/
theorem par3E_runs {n : Int} {body : Int → Int → Int → Prog R Unit}
    (hA : ∀ a l i k, A a = true → a.InB d l i k →
      (0 ≤ l ∧ l < d.ntracers) ∧ (0 ≤ i ∧ i < n) ∧ (0 ≤ k ∧ k < d.nlayers))
    (h : ∀ l i k, (0 ≤ l ∧ l < d.ntracers) → (0 ≤ i ∧ i < n) → (0 ≤ k ∧ k < d.nlayers) →
      Op d m A own3e (l, i, k) (body l i k) G) :
    (par3 d.ntracers n d.nlayers body).Runs d m (m.upd (RegA d A) G) := by
  refine Cmd.runs_op own3e ?_ ?_
  · intro a l i k ha hb
    exact hA a l i k ha hb
  · rintro ⟨l, i, k⟩ ⟨h1, h2, h3⟩
    exact h l i k h1 h2 h3

end

/-! ### Kernels -/

section

variable {d : Dims} {m : Mem R} {A : RArr → Bool}

theorem op_vertex {h vn f : RArr} {i k : Int} (C : Ctx d m A)
    (a1 : A .rvort_vertex = true) (a2 : A .norm_rvort_vertex = true)
    (a3 : A .norm_pvort_vertex = true) (ah : A h = false) (av : A vn = false) (af : A f = false)
    (eh : CArr d h) (ev : EArr d vn) (ef : f.ext d = (1, d.nvertices, 1))
    (hi : 0 ≤ i ∧ i < d.nvertices) (hk : 0 ≤ k ∧ k < d.nlayers) :
    Op d m A own2e (i, k, 0) (h_vertex_aux h vn f i k)
      (eff3 .rvort_vertex (fun _ i k _ => HFn.rvort m.mesh (m.sl vn 0 k) i)
        .norm_rvort_vertex (fun _ i k _ => HFn.nrv m.mesh (m.sl h 0 k) (m.sl vn 0 k) i)
        .norm_pvort_vertex (fun _ i k _ => HFn.npv m.mesh (m.sl h 0 k) (m.sl f 0 0) i)) := by
  intro M hM perm hp
  have ho1 := only2e (a := .rvort_vertex) a1 rfl hi hk
  have ho2 := only2e (a := .norm_rvort_vertex) a2 rfl hi hk
  have ho3 := only2e (a := .norm_pvort_vertex) a3 rfl hi hk
  ld
  refine wp_bind (wp_forI_read (by omega) (fun j s => s + m.mesh.dc (m.mesh.eov i j) *
    m.mesh.signV i j * m.sl vn 0 k (m.mesh.eov i j)) ?_ ?_)
  · intro j s h0 h1
    have he := C.conn.eov i hi.1 hi.2 j h0 h1
    ld; ld; ld; ld; ld
  refine wp_bind (wp_forI_read (by omega) (fun j s => s + m.mesh.kite i j *
    m.sl h 0 k (m.mesh.cov i j)) ?_ ?_)
  · intro j s h0 h1
    have he := C.conn.cov i hi.1 hi.2 j h0 h1
    ld; ld; ld; ld
  refine wp_bind (e_wr2 hp ho1 (by inb) ?_)
  refine wp_bind (e_wr2 hp ho2 (by inb) ?_)
  refine wp_bind (gp_rd1 hp (agree_setR (agree_setR hM a1) a2) af (inb1 ef hi) ?_)
  exact e_wr2 hp ho3 (by inb) (setR_upd3 (by decide) (by decide) (by decide) ho1 ho2 ho3 _ _ _
    rfl rfl rfl)

theorem op_cell {h vn tr : RArr} {i k : Int} (C : Ctx d m A)
    (a1 : A .vel_div_cell = true) (a2 : A .ke_cell = true) (a3 : A .norm_tr_cell = true)
    (ah : A h = false) (av : A vn = false) (at' : A tr = false)
    (eh : CArr d h) (ev : EArr d vn) (et : TArr d tr)
    (hi : 0 ≤ i ∧ i < d.ncells) (hk : 0 ≤ k ∧ k < d.nlayers) :
    Op d m A own2e (i, k, 0) (h_cell_aux d.ntracers h vn tr i k)
      (fun a l i k v => eff .norm_tr_cell (fun l i k v => if 0 ≤ l ∧ l < d.ntracers then
          Fn.ntr (m.sl tr l k) (m.sl h 0 k) i else v) a l i k
        (eff2 .vel_div_cell (fun _ i k _ => HFn.div m.mesh (m.sl vn 0 k) i)
          .ke_cell (fun _ i k _ => HFn.ke m.mesh (m.sl vn 0 k) i) a l i k v)) := by
  have tail : Op d m A own2e (i, k, 0) (do
      let hc ← rd2 h i k
      forI d.ntracers () fun l _ => do
        let t ← rd3 tr l i k
        wr3 .norm_tr_cell l i k (t * (lit 1 / hc)))
      (eff .norm_tr_cell (fun l i k v => if 0 ≤ l ∧ l < d.ntracers then
          Fn.ntr (m.sl tr l k) (m.sl h 0 k) i else v)) := by
    intro M hM perm hp
    refine wp_bind (gp_rd2 hp hM ah (inbE eh hi hk) ?_)
    refine Op.forI (p := fun l => do
        let t ← rd3 tr l i k
        wr3 .norm_tr_cell l i k (t * (lit 1 / m.real h 0 i k))) C.dims.tr_nonneg ?_ M hM perm hp
    intro l h0 h1 M hM perm hp
    have hr : Reg d A own2e (i, k, 0) .norm_tr_cell l i k :=
      ⟨a3, inbT (a := .norm_tr_cell) rfl ⟨h0, h1⟩ hi hk, rfl⟩
    refine wp_bind (gp_rd3 hp hM at' (inbT et ⟨h0, h1⟩ hi hk) ?_)
    refine wp_wr3 hr.2.1 (hp.own _ _ _ _ hr) (setR_upd_row hr _ ?_ ?_)
    · rintro l' i' k' w hr' hne
      rw [if_neg]
      rintro rfl
      have := hr'.2.2
      simp only [own2e, Prod.mk.injEq] at this
      exact hne ⟨rfl, this.1, this.2.1⟩
    · rw [if_pos rfl]; rfl
  intro M hM perm hp
  have hn := C.conn.neoc i hi.1 hi.2
  have ho1 := only2e (a := .vel_div_cell) a1 rfl hi hk
  have ho2 := only2e (a := .ke_cell) a2 rfl hi hk
  ld
  refine wp_bind (wp_forI_read hn.1 (fun j s => (s.1 + m.mesh.dv (m.mesh.eoc i j) *
    m.mesh.dc (m.mesh.eoc i j) * m.sl vn 0 k (m.mesh.eoc i j) * m.sl vn 0 k (m.mesh.eoc i j) *
      quarter, s.2 + m.mesh.dv (m.mesh.eoc i j) * m.mesh.signC i j *
        m.sl vn 0 k (m.mesh.eoc i j))) ?_ ?_)
  · intro j s h0 h1
    have he := C.conn.eoc i hi.1 hi.2 j h0 h1
    ld; ld; ld; ld; ld; ld; ld
  rw [foldI_pair _ _ _ (fun j s => s + m.mesh.dv (m.mesh.eoc i j) *
    m.mesh.dc (m.mesh.eoc i j) * m.sl vn 0 k (m.mesh.eoc i j) * m.sl vn 0 k (m.mesh.eoc i j) *
      quarter) (fun j s => s + m.mesh.dv (m.mesh.eoc i j) * m.mesh.signC i j *
        m.sl vn 0 k (m.mesh.eoc i j)) hn.1]
  ld
  refine wp_bind (e_wr2 hp ho1 (by inb) ?_)
  refine wp_bind (e_wr2 hp ho2 (by inb) ?_)
  refine wp_mono (tail _ (agree_setR (agree_setR hM a1) a2) perm hp) ?_
  rintro - M' rfl
  refine (congrArg (fun Z : Mem R => Z.upd (Reg d A own2e (i, k, 0)) _)
    (setR_upd2 (by decide) ho1 ho2 (fun _ i k _ => HFn.div m.mesh (m.sl vn 0 k) i)
    (fun _ i k _ => HFn.ke m.mesh (m.sl vn 0 k) i) rfl rfl)).trans ?_
  exact Mem.upd_upd M _ _ _

theorem op_edge {h : RArr} {i k : Int} (C : Ctx d m A)
    (a1 : A .mean_h_edge = true) (a2 : A .flux_h_edge = true) (a3 : A .norm_rvort_edge = true)
    (a4 : A .norm_pvort_edge = true) (ah : A h = false) (b1 : A .norm_rvort_vertex = false)
    (b2 : A .norm_pvort_vertex = false) (eh : CArr d h)
    (hi : 0 ≤ i ∧ i < d.nedges) (hk : 0 ≤ k ∧ k < d.nlayers) :
    Op d m A own2e (i, k, 0) (h_edge_aux h i k)
      (fun a l i k v => eff2
        .norm_rvort_edge (fun _ i k _ => HFn.vedge m.mesh (m.sl .norm_rvort_vertex 0 k) i)
        .norm_pvort_edge (fun _ i k _ => HFn.vedge m.mesh (m.sl .norm_pvort_vertex 0 k) i) a l i k
        (eff2 .mean_h_edge (fun _ i k _ => HFn.hmean m.mesh (m.sl h 0 k) i)
          .flux_h_edge (fun _ i k _ => HFn.hmean m.mesh (m.sl h 0 k) i) a l i k v)) := by
  intro M hM perm hp
  have ho1 := only2e (a := .mean_h_edge) a1 rfl hi hk
  have ho2 := only2e (a := .flux_h_edge) a2 rfl hi hk
  have ho3 := only2e (a := .norm_rvort_edge) a3 rfl hi hk
  have ho4 := only2e (a := .norm_pvort_edge) a4 rfl hi hk
  refine wp_bind (wp_forI_read (by omega) (fun j s => s + m.sl h 0 k (m.mesh.coe i j)) ?_ ?_)
  · intro j s h0 h1
    have he := C.conn.coe i hi.1 hi.2 j h0 h1
    ld; ld; ld
  refine wp_bind (wp_forI_read (by omega) (fun j s =>
    (s.1 + m.sl .norm_rvort_vertex 0 k (m.mesh.voe i j),
     s.2 + m.sl .norm_pvort_vertex 0 k (m.mesh.voe i j))) ?_ ?_)
  · intro j s h0 h1
    have he := C.conn.voe i hi.1 hi.2 j h0 h1
    ld; ld; ld; ld
  rw [foldI_pair _ _ _ (fun j s => s + m.sl .norm_rvort_vertex 0 k (m.mesh.voe i j))
    (fun j s => s + m.sl .norm_pvort_vertex 0 k (m.mesh.voe i j)) (by omega)]
  refine wp_bind (e_wr2 hp ho1 (by inb) ?_)
  refine wp_bind (e_wr2 hp ho2 (by inb) ?_)
  refine wp_bind (e_wr2 hp ho3 (by inb) ?_)
  refine e_wr2 hp ho4 (by inb) ?_
  refine (setR_upd2 (by decide) ho3 ho4
    (fun _ i k _ => HFn.vedge m.mesh (m.sl .norm_rvort_vertex 0 k) i)
    (fun _ i k _ => HFn.vedge m.mesh (m.sl .norm_pvort_vertex 0 k) i) rfl rfl).trans ?_
  refine (congrArg (fun Z : Mem R => Z.upd (Reg d A own2e (i, k, 0)) _)
    (setR_upd2 (by decide) ho1 ho2 (fun _ i k _ => HFn.hmean m.mesh (m.sl h 0 k) i)
    (fun _ i k _ => HFn.hmean m.mesh (m.sl h 0 k) i) rfl rfl)).trans ?_
  exact Mem.upd_upd M _ _ _

theorem op_htend {mode : AddMode} {tend vn : RArr} {i k : Int} (C : Ctx d m A)
    (at' : A tend = true) (av : A vn = false) (b1 : A .flux_h_edge = false)
    (et : CArr d tend) (ev : EArr d vn)
    (hi : 0 ≤ i ∧ i < d.ncells) (hk : 0 ≤ k ∧ k < d.nlayers) :
    Op d m A own2e (i, k, 0) (h_htend mode tend vn i k)
      (eff tend fun _ i k o =>
        putm mode o (HFn.htend m.mesh (m.sl .flux_h_edge 0 k) (m.sl vn 0 k) i)) := by
  intro M hM perm hp
  have hn := C.conn.neoc i hi.1 hi.2
  have ho := only2e at' et hi hk
  ld
  refine wp_bind (wp_forI_read hn.1 (fun j s => s + m.mesh.dv (m.mesh.eoc i j) * m.mesh.signC i j *
    m.sl .flux_h_edge 0 k (m.mesh.eoc i j) * m.sl vn 0 k (m.mesh.eoc i j)) ?_ ?_)
  · intro j s h0 h1
    have he := C.conn.eoc i hi.1 hi.2 j h0 h1
    ld; ld; ld; ld; ld; ld
  ld
  exact e_put2 mode hp ho (by inb) fun o => rfl

theorem op_del2u {i k : Int} (C : Ctx d m A) (a1 : A .vel_del2_edge = true)
    (b1 : A .vel_div_cell = false) (b2 : A .rvort_vertex = false)
    (hi : 0 ≤ i ∧ i < d.nedges) (hk : 0 ≤ k ∧ k < d.nlayers) :
    Op d m A own2e (i, k, 0) (h_del2u i k)
      (eff .vel_del2_edge fun _ i k _ =>
        Fn.del2 m.mesh (m.sl .vel_div_cell 0 k) (m.sl .rvort_vertex 0 k) i) := by
  intro M hM perm hp
  have ho := only2e (a := .vel_del2_edge) a1 rfl hi hk
  have hc0 := C.conn.coe i hi.1 hi.2 0 (by omega) (by omega)
  have hc1 := C.conn.coe i hi.1 hi.2 1 (by omega) (by omega)
  have hv0 := C.conn.voe i hi.1 hi.2 0 (by omega) (by omega)
  have hv1 := C.conn.voe i hi.1 hi.2 1 (by omega) (by omega)
  ld; ld; ld; ld; ld; ld; ld; ld; ld; ld
  exact e_wr2 hp ho (by inb) (setR_upd1 ho _ rfl)

theorem op_del2div {i k : Int} (C : Ctx d m A) (a1 : A .vel_del2_div_cell = true)
    (b1 : A .vel_del2_edge = false)
    (hi : 0 ≤ i ∧ i < d.ncells) (hk : 0 ≤ k ∧ k < d.nlayers) :
    Op d m A own2e (i, k, 0) (h_del2div i k)
      (eff .vel_del2_div_cell fun _ i k _ => HFn.div m.mesh (m.sl .vel_del2_edge 0 k) i) := by
  intro M hM perm hp
  have ho := only2e (a := .vel_del2_div_cell) a1 rfl hi hk
  have hn := C.conn.neoc i hi.1 hi.2
  ld
  refine wp_bind (wp_forI_read hn.1 (fun j s => s + m.mesh.dv (m.mesh.eoc i j) * m.mesh.signC i j *
    m.sl .vel_del2_edge 0 k (m.mesh.eoc i j)) ?_ ?_)
  · intro j s h0 h1
    have he := C.conn.eoc i hi.1 hi.2 j h0 h1
    ld; ld; ld; ld; ld
  ld
  exact e_wr2 hp ho (by inb) (setR_upd1 ho _ rfl)

theorem op_del2rvort {vn : RArr} {i k : Int} (C : Ctx d m A)
    (a1 : A .vel_del2_rvort_vertex = true) (av : A vn = false) (ev : EArr d vn)
    (hi : 0 ≤ i ∧ i < d.nvertices) (hk : 0 ≤ k ∧ k < d.nlayers) :
    Op d m A own2e (i, k, 0) (h_del2rvort vn i k)
      (eff .vel_del2_rvort_vertex fun _ i k _ => HFn.rvort m.mesh (m.sl vn 0 k) i) := by
  intro M hM perm hp
  have ho := only2e (a := .vel_del2_rvort_vertex) a1 rfl hi hk
  refine wp_bind (wp_forI_read (by omega) (fun j s => s + m.mesh.dc (m.mesh.eov i j) *
    m.mesh.signV i j * m.sl vn 0 k (m.mesh.eov i j)) ?_ ?_)
  · intro j s h0 h1
    have he := C.conn.eov i hi.1 hi.2 j h0 h1
    ld; ld; ld; ld; ld
  ld
  exact e_wr2 hp ho (by inb) (setR_upd1 ho _ rfl)

set_option maxHeartbeats 800000 in
theorem op_vtend {prm : Params R} {mode : AddMode} {tend h vn : RArr} {i k : Int} (C : Ctx d m A)
    (at' : A tend = true) (ah : A h = false) (av : A vn = false)
    (b1 : A .norm_rvort_edge = false) (b2 : A .norm_pvort_edge = false)
    (b3 : A .flux_h_edge = false) (b4 : A .ke_cell = false) (b5 : A .vel_div_cell = false)
    (b6 : A .rvort_vertex = false) (b7 : A .vel_del2_div_cell = false)
    (b8 : A .vel_del2_rvort_vertex = false)
    (et : EArr d tend) (eh : CArr d h) (ev : EArr d vn)
    (hi : 0 ≤ i ∧ i < d.nedges) (hk : 0 ≤ k ∧ k < d.nlayers) :
    Op d m A own2e (i, k, 0) (h_vtend prm mode tend h vn i k)
      (eff tend fun _ i k o =>
        putm mode o (HFn.vt m.mesh prm k (m.sl .norm_rvort_edge 0 k) (m.sl .norm_pvort_edge 0 k)
          (m.sl .flux_h_edge 0 k) (m.sl vn 0 k) (m.sl .ke_cell 0 k) (m.sl h 0 k)
          (m.sl .vel_div_cell 0 k) (m.sl .rvort_vertex 0 k) (m.sl .vel_del2_div_cell 0 k)
          (m.sl .vel_del2_rvort_vertex 0 k) i)) := by
  intro M hM perm hp
  have ho := only2e at' et hi hk
  have hn := C.conn.neoe i hi.1 hi.2
  have hc0 := C.conn.coe i hi.1 hi.2 0 (by omega) (by omega)
  have hc1 := C.conn.coe i hi.1 hi.2 1 (by omega) (by omega)
  have hv0 := C.conn.voe i hi.1 hi.2 0 (by omega) (by omega)
  have hv1 := C.conn.voe i hi.1 hi.2 1 (by omega) (by omega)
  ld
  refine wp_bind (wp_forI_read hn.1 (fun j s => s + m.mesh.woe i j *
    m.sl .flux_h_edge 0 k (m.mesh.eoe i j) * m.sl vn 0 k (m.mesh.eoe i j) *
    ((m.sl .norm_rvort_edge 0 k i + m.sl .norm_pvort_edge 0 k i +
      m.sl .norm_rvort_edge 0 k (m.mesh.eoe i j) + m.sl .norm_pvort_edge 0 k (m.mesh.eoe i j)) *
        half)) ?_ ?_)
  · intro j s h0 h1
    have he := C.conn.eoe i hi.1 hi.2 j h0 h1
    ld; ld; ld; ld; ld; ld; ld; ld; ld
  ld; ld; ld; ld; ld; ld; ld; ld
  have step4 : ∀ x : R, Wp d perm (do
      let t ← if Scalar.lt (lit 0) prm.visc_del4 then do
          let ivertex0 ← rdI2 .vertices_on_edge i 0
          let ivertex1 ← rdI2 .vertices_on_edge i 1
          let sc ← rd1 .mesh_scaling_del4 i
          let d1 ← rd2 .vel_del2_div_cell (m.int .cells_on_edge i 1) k
          let d0 ← rd2 .vel_del2_div_cell (m.int .cells_on_edge i 0) k
          let r1 ← rd2 .vel_del2_rvort_vertex ivertex1 k
          let r0 ← rd2 .vel_del2_rvort_vertex ivertex0 k
          let mask ← rd2 .edge_mask i k
          pure (x - prm.visc_del4 * sc * ((d1 - d0) * (lit 1 / m.real .dc_edge 0 i 0) -
            (r1 - r0) * (lit 1 / m.real .dv_edge 0 i 0)) * mask)
        else pure x
      put2m mode tend i k t) M (fun _ M' => M' = M.upd (Reg d A own2e (i, k, 0))
        (eff tend fun _ i k o => putm mode o (if Scalar.lt (lit 0) prm.visc_del4 = true then
          x - prm.visc_del4 * m.mesh.sdel4 i * HFn.lap m.mesh (m.sl .vel_del2_div_cell 0 k)
            (m.sl .vel_del2_rvort_vertex 0 k) i * m.mesh.mask i k else x))) := by
    intro x
    cases hb : Scalar.lt (lit 0) prm.visc_del4 with
    | true =>
      simp only [if_true]
      ld; ld; ld; ld; ld; ld; ld; ld
      refine wp_bind (wp_pure' ?_)
      exact e_put2 mode hp ho (by inb) fun o => rfl
    | false =>
      simp only [Bool.false_eq_true, if_false]
      refine wp_bind (wp_pure' ?_)
      exact e_put2 mode hp ho (by inb) fun o => rfl
  cases hb : Scalar.lt (lit 0) prm.visc_del2 with
  | true =>
    simp only [if_true]
    ld; ld; ld; ld; ld; ld; ld; ld
    refine wp_bind (wp_pure' ?_)
    refine wp_mono (step4 _) ?_
    rintro - M' rfl
    refine Mem.upd_congr (fun _ _ _ _ => Iff.rfl) ?_
    rintro a l i' k' v ⟨-, -, e⟩
    simp only [own2e, Prod.mk.injEq] at e
    obtain ⟨rfl, rfl, -⟩ := e
    simp only [eff, HFn.vt, hb]
    rfl
  | false =>
    simp only [Bool.false_eq_true, if_false]
    refine wp_bind (wp_pure' ?_)
    refine wp_mono (step4 _) ?_
    rintro - M' rfl
    refine Mem.upd_congr (fun _ _ _ _ => Iff.rfl) ?_
    rintro a l i' k' v ⟨-, -, e⟩
    simp only [own2e, Prod.mk.injEq] at e
    obtain ⟨rfl, rfl, -⟩ := e
    simp only [eff, HFn.vt, hb]
    rfl

theorem op_trdel2 {l i k : Int} (C : Ctx d m A) (a1 : A .tracer_del2_cell = true)
    (b1 : A .norm_tr_cell = false) (b2 : A .mean_h_edge = false)
    (hl : 0 ≤ l ∧ l < d.ntracers) (hi : 0 ≤ i ∧ i < d.ncells) (hk : 0 ≤ k ∧ k < d.nlayers) :
    Op d m A own3e (l, i, k) (h_trdel2 l i k)
      (eff .tracer_del2_cell fun l i k _ =>
        HFn.trdel2 m.mesh (m.sl .norm_tr_cell l k) (m.sl .mean_h_edge 0 k) i) := by
  intro M hM perm hp
  have ho := only3e (a := .tracer_del2_cell) a1 rfl hl hi hk
  have hn := C.conn.neoc i hi.1 hi.2
  ld
  refine wp_bind (wp_forI_read hn.1 (fun j s => s + m.mesh.dv (m.mesh.eoc i j) * m.mesh.signC i j *
    m.sl .mean_h_edge 0 k (m.mesh.eoc i j) * m.mesh.sdel2 (m.mesh.eoc i j) *
    ((m.sl .norm_tr_cell l k (m.mesh.coe (m.mesh.eoc i j) 1) -
      m.sl .norm_tr_cell l k (m.mesh.coe (m.mesh.eoc i j) 0)) *
        (lit 1 / m.mesh.dc (m.mesh.eoc i j)))) ?_ ?_)
  · intro j s h0 h1
    have he := C.conn.eoc i hi.1 hi.2 j h0 h1
    have hc0 := C.conn.coe _ he.1 he.2 0 (by omega) (by omega)
    have hc1 := C.conn.coe _ he.1 he.2 1 (by omega) (by omega)
    ld; ld; ld; ld; ld; ld; ld; ld; ld; ld; ld
  ld
  exact e_wr3 hp ho (by inb) (setR_upd1 ho _ rfl)

set_option maxHeartbeats 1000000 in
theorem op_trtend {prm : Params R} {mode : AddMode} {tend vn : RArr} {l i k : Int} (C : Ctx d m A)
    (at' : A tend = true) (av : A vn = false) (b1 : A .norm_tr_cell = false)
    (b2 : A .mean_h_edge = false) (b3 : A .flux_h_edge = false) (b4 : A .tracer_del2_cell = false)
    (et : TArr d tend) (ev : EArr d vn)
    (hl : 0 ≤ l ∧ l < d.ntracers) (hi : 0 ≤ i ∧ i < d.ncells) (hk : 0 ≤ k ∧ k < d.nlayers) :
    Op d m A own3e (l, i, k) (h_trtend prm mode tend vn l i k)
      (eff tend fun l i k o => putm mode o (HFn.trtend m.mesh prm (m.sl .flux_h_edge 0 k)
        (m.sl .mean_h_edge 0 k) (m.sl vn 0 k) (m.sl .norm_tr_cell l k)
        (m.sl .tracer_del2_cell l k) i)) := by
  intro M hM perm hp
  have ho := only3e at' et hl hi hk
  have hn := C.conn.neoc i hi.1 hi.2
  ld
  refine wp_bind (wp_forI_read hn.1 (fun j s => s + m.mesh.dv (m.mesh.eoc i j) * m.mesh.signC i j *
    HFn.trflux m.mesh prm (m.sl .flux_h_edge 0 k) (m.sl .mean_h_edge 0 k) (m.sl vn 0 k)
      (m.sl .norm_tr_cell l k) (m.sl .tracer_del2_cell l k) (m.mesh.eoc i j)) ?_ ?_)
  · intro j s h0 h1
    have he := C.conn.eoc i hi.1 hi.2 j h0 h1
    have hc0 := C.conn.coe _ he.1 he.2 0 (by omega) (by omega)
    have hc1 := C.conn.coe _ he.1 he.2 1 (by omega) (by omega)
    unfold HFn.trflux
    ld; ld; ld; ld; ld; ld; ld; ld
    cases hb2 : Scalar.lt (lit 0) prm.eddy_diff2 <;> cases hb4 : Scalar.lt (lit 0) prm.eddy_diff4
    · simp only [Bool.false_eq_true, if_false]
      refine wp_bind (wp_pure' (wp_bind (wp_pure' ?_)))
      ld; ld; ld
    · simp only [Bool.false_eq_true, if_false, if_true]
      refine wp_bind (wp_pure' ?_)
      ld; ld; ld
      refine wp_bind (wp_pure' ?_)
      ld; ld; ld
    · simp only [Bool.false_eq_true, if_false, if_true]
      ld; ld; ld
      refine wp_bind (wp_pure' (wp_bind (wp_pure' ?_)))
      ld; ld; ld
    · simp only [if_true]
      ld; ld; ld
      refine wp_bind (wp_pure' ?_)
      ld; ld; ld
      refine wp_bind (wp_pure' ?_)
      ld; ld; ld
  ld
  exact e_put3 mode hp ho (by inb) fun o => rfl

theorem op_linH {h0 : R} {mode : AddMode} {tend vn : RArr} {i k : Int} (C : Ctx d m A)
    (at' : A tend = true) (av : A vn = false) (et : CArr d tend) (ev : EArr d vn)
    (hi : 0 ≤ i ∧ i < d.ncells) (hk : 0 ≤ k ∧ k < d.nlayers) :
    Op d m A own2e (i, k, 0) (lin_htend h0 mode tend vn i k)
      (eff tend fun _ i k o => putm mode o (HFn.linH m.mesh h0 (m.sl vn 0 k) i)) := by
  intro M hM perm hp
  have hn := C.conn.neoc i hi.1 hi.2
  have ho := only2e at' et hi hk
  ld
  refine wp_bind (wp_forI_read hn.1 (fun j s => s + m.mesh.dv (m.mesh.eoc i j) * m.mesh.signC i j *
    m.sl vn 0 k (m.mesh.eoc i j)) ?_ ?_)
  · intro j s h0 h1
    have he := C.conn.eoc i hi.1 hi.2 j h0 h1
    ld; ld; ld; ld; ld
  ld
  exact e_put2 mode hp ho (by inb) fun o => rfl

theorem op_linV {grav : R} {mode : AddMode} {tend h vn : RArr} {i k : Int} (C : Ctx d m A)
    (at' : A tend = true) (ah : A h = false) (av : A vn = false) (b1 : A .f_edge = false)
    (et : EArr d tend) (eh : CArr d h) (ev : EArr d vn)
    (hi : 0 ≤ i ∧ i < d.nedges) (hk : 0 ≤ k ∧ k < d.nlayers) :
    Op d m A own2e (i, k, 0) (lin_vtend grav mode tend h vn i k)
      (eff tend fun _ i k o =>
        putm mode o (HFn.linV m.mesh grav (m.sl .f_edge 0 0) (m.sl h 0 k) (m.sl vn 0 k) i)) := by
  intro M hM perm hp
  have hn := C.conn.neoe i hi.1 hi.2
  have hc0 := C.conn.coe i hi.1 hi.2 0 (by omega) (by omega)
  have hc1 := C.conn.coe i hi.1 hi.2 1 (by omega) (by omega)
  have ho := only2e at' et hi hk
  ld
  refine wp_bind (wp_forI_read hn.1 (fun j s => s + m.mesh.woe i j *
    m.sl vn 0 k (m.mesh.eoe i j)) ?_ ?_)
  · intro j s h0 h1
    have he := C.conn.eoe i hi.1 hi.2 j h0 h1
    ld; ld; ld; ld
  ld; ld; ld; ld; ld; ld
  exact e_put2 mode hp ho (by inb) fun o => rfl

end

/-! ### Locality -/

section

variable {d : Dims} {M : Mesh R} (hM : MeshOK d M)
include hM

theorem hl_ke {x y : Int → R} (h : EqOn d.nedges x y) : EqOn d.ncells (HFn.ke M x) (HFn.ke M y) :=
  fun c h0 h1 => congrArg (· * (lit 1 / M.areaCell c))
    (foldI_congr _ _ _ _ fun j h2 h3 s => by rw [eoc_eq hM h h0 h1 h2 h3])
theorem hl_div {x y : Int → R} (h : EqOn d.nedges x y) :
    EqOn d.ncells (HFn.div M x) (HFn.div M y) :=
  fun c h0 h1 => congrArg (· * (lit 1 / M.areaCell c))
    (foldI_congr _ _ _ _ fun j h2 h3 s => by rw [eoc_eq hM h h0 h1 h2 h3])
theorem hl_rvort {x y : Int → R} (h : EqOn d.nedges x y) :
    EqOn d.nvertices (HFn.rvort M x) (HFn.rvort M y) :=
  fun v h0 h1 => congrArg (· * (lit 1 / M.areaTri v))
    (foldI_congr _ _ _ _ fun j h2 h3 s => by rw [eov_eq hM h h0 h1 h2 h3])
theorem hl_vedge {x y : Int → R} (h : EqOn d.nvertices x y) :
    EqOn d.nedges (HFn.vedge M x) (HFn.vedge M y) :=
  fun e h0 h1 => congrArg (· * half)
    (foldI_congr _ _ _ _ fun j h2 h3 s => by rw [voe_eq hM h h0 h1 h2 h3])
theorem hl_htend {x y x' y' : Int → R} (h : EqOn d.nedges x y) (h' : EqOn d.nedges x' y') :
    EqOn d.ncells (HFn.htend M x x') (HFn.htend M y y') :=
  fun c h0 h1 => congrArg (fun z => -z * (lit 1 / M.areaCell c))
    (foldI_congr _ _ _ _ fun j h2 h3 s => by
      rw [eoc_eq hM h h0 h1 h2 h3, eoc_eq hM h' h0 h1 h2 h3])
theorem hl_del2 {x y x' y' : Int → R} (h : EqOn d.ncells x y) (h' : EqOn d.nvertices x' y') :
    EqOn d.nedges (Fn.del2 M x x') (Fn.del2 M y y') := scalarF_local.del2 hM h h'
theorem hl_lap {x y x' y' : Int → R} (h : EqOn d.ncells x y) (h' : EqOn d.nvertices x' y') :
    EqOn d.nedges (HFn.lap M x x') (HFn.lap M y y') := by
  intro e h0 h1
  simp only [HFn.lap]
  rw [coe_eq hM h h0 h1 (s := 0) (by omega) (by omega),
    coe_eq hM h h0 h1 (s := 1) (by omega) (by omega),
    voe_eq hM h' h0 h1 (s := 0) (by omega) (by omega),
    voe_eq hM h' h0 h1 (s := 1) (by omega) (by omega)]
theorem hl_vt0 {g : R} {x1 y1 x2 y2 x3 y3 x4 y4 x5 y5 x6 y6 : Int → R}
    (h1 : EqOn d.nedges x1 y1) (h2 : EqOn d.nedges x2 y2) (h3 : EqOn d.nedges x3 y3)
    (h4 : EqOn d.nedges x4 y4) (h5 : EqOn d.ncells x5 y5) (h6 : EqOn d.ncells x6 y6) :
    EqOn d.nedges (HFn.vt0 M g x1 x2 x3 x4 x5 x6) (HFn.vt0 M g y1 y2 y3 y4 y5 y6) := by
  intro e e0 e1
  simp only [HFn.vt0]
  rw [coe_eq hM h5 e0 e1 (s := 0) (by omega) (by omega),
    coe_eq hM h5 e0 e1 (s := 1) (by omega) (by omega),
    coe_eq hM h6 e0 e1 (s := 0) (by omega) (by omega),
    coe_eq hM h6 e0 e1 (s := 1) (by omega) (by omega), h1 e e0 e1, h2 e e0 e1]
  refine congrArg (· - _) (foldI_congr _ _ _ _ fun j j0 j1 s => ?_)
  rw [eoe_eq hM h1 e0 e1 j0 j1, eoe_eq hM h2 e0 e1 j0 j1, eoe_eq hM h3 e0 e1 j0 j1,
    eoe_eq hM h4 e0 e1 j0 j1]
theorem hl_trdel2 {x y x' y' : Int → R} (h : EqOn d.ncells x y) (h' : EqOn d.nedges x' y') :
    EqOn d.ncells (HFn.trdel2 M x x') (HFn.trdel2 M y y') := by
  intro c h0 h1
  refine congrArg (· * (lit 1 / M.areaCell c)) (foldI_congr _ _ _ _ fun j h2 h3 s => ?_)
  have he := hM.eoc c h0 h1 j h2 h3
  rw [coe_eq hM h he.1 he.2 (s := 0) (by omega) (by omega),
    coe_eq hM h he.1 he.2 (s := 1) (by omega) (by omega), h' _ he.1 he.2]
theorem hl_trflux {prm : Params R} {x1 y1 x2 y2 x3 y3 x4 y4 x5 y5 : Int → R}
    (h1 : EqOn d.nedges x1 y1) (h2 : EqOn d.nedges x2 y2) (h3 : EqOn d.nedges x3 y3)
    (h4 : EqOn d.ncells x4 y4) (h5 : Scalar.lt (lit 0) prm.eddy_diff4 = true → EqOn d.ncells x5 y5) :
    EqOn d.nedges (HFn.trflux M prm x1 x2 x3 x4 x5) (HFn.trflux M prm y1 y2 y3 y4 y5) := by
  intro e e0 e1
  simp only [HFn.trflux]
  rw [coe_eq hM h4 e0 e1 (s := 0) (by omega) (by omega),
    coe_eq hM h4 e0 e1 (s := 1) (by omega) (by omega), h1 e e0 e1, h2 e e0 e1, h3 e e0 e1]
  cases hb : Scalar.lt (lit 0) prm.eddy_diff4 with
  | true =>
    rw [coe_eq hM (h5 hb) e0 e1 (s := 0) (by omega) (by omega),
      coe_eq hM (h5 hb) e0 e1 (s := 1) (by omega) (by omega)]
  | false => rfl
theorem hl_trtend {prm : Params R} {x1 y1 x2 y2 x3 y3 x4 y4 x5 y5 : Int → R}
    (h1 : EqOn d.nedges x1 y1) (h2 : EqOn d.nedges x2 y2) (h3 : EqOn d.nedges x3 y3)
    (h4 : EqOn d.ncells x4 y4) (h5 : Scalar.lt (lit 0) prm.eddy_diff4 = true → EqOn d.ncells x5 y5) :
    EqOn d.ncells (HFn.trtend M prm x1 x2 x3 x4 x5) (HFn.trtend M prm y1 y2 y3 y4 y5) := by
  intro c c0 c1
  refine congrArg (· * (lit 1 / M.areaCell c)) (foldI_congr _ _ _ _ fun j j0 j1 s => ?_)
  have he := hM.eoc c c0 c1 j j0 j1
  rw [hl_trflux hM h1 h2 h3 h4 h5 _ he.1 he.2]

end

/-! ### The tendency as a function -/

namespace HSys

variable (M : Mesh R) (f : Int → R) (prm : Params R) (s : Fld R)

/-- edge thickness -/
def flux (k : Int) : Int → R := HFn.hmean M (Sys.hk s k)
/-- relative vorticity -/
def rv (k : Int) : Int → R := HFn.rvort M (Sys.vk s k)
/-- normalised relative vorticity on vertices -/
def nrvV (k : Int) : Int → R := HFn.nrv M (Sys.hk s k) (Sys.vk s k)
/-- normalised planetary vorticity on vertices -/
def npvV (k : Int) : Int → R := HFn.npv M (Sys.hk s k) f
/-- normalised relative vorticity on edges -/
def nrvE (k : Int) : Int → R := HFn.vedge M (nrvV M s k)
/-- normalised planetary vorticity on edges -/
def npvE (k : Int) : Int → R := HFn.vedge M (npvV M f s k)
/-- kinetic energy -/
def keC (k : Int) : Int → R := HFn.ke M (Sys.vk s k)
/-- divergence -/
def divC (k : Int) : Int → R := HFn.div M (Sys.vk s k)
/-- tracer concentration -/
def ntrC (l k : Int) : Int → R := Fn.ntr (Sys.tk s l k) (Sys.hk s k)
/-- vector Laplacian -/
def d2E (k : Int) : Int → R := Fn.del2 M (divC M s k) (rv M s k)
/-- its divergence -/
def d2C (k : Int) : Int → R := HFn.div M (d2E M s k)
/-- tracer Laplacian -/
def t2C (l k : Int) : Int → R := HFn.trdel2 M (ntrC s l k) (flux M s k)

/-- velocity tendency -/
def vnTend (k : Int) : Int → R :=
  HFn.vt M prm k (nrvE M s k) (npvE M f s k) (flux M s k) (Sys.vk s k) (keC M s k) (Sys.hk s k)
    (divC M s k) (rv M s k) (d2C M s k) (rv M s k)
/-- tracer tendency -/
def trTend (l k : Int) : Int → R :=
  HFn.trtend M prm (flux M s k) (flux M s k) (Sys.vk s k) (ntrC s l k) (t2C M s l k)

/-- The tendency computed by `compute_tendency` of the single-file implementation. -/
def tend (mode : AddMode) (old s : Fld R) : Fld R where
  h c k := if prm.disable_h = true then old.h c k else
    putm mode (old.h c k) (HFn.htend M (flux M s k) (Sys.vk s k) c)
  vn e k := if prm.disable_vn = true then old.vn e k else
    putm mode (old.vn e k) (vnTend M f prm s k e)
  tr l c k := putm mode (old.tr l c k) (trTend M prm s l k c)

end HSys

/-- Memory with valid connectivity, mesh `M` and Coriolis parameter `f` on vertices. -/
structure HSetup (d : Dims) (M : Mesh R) (f : Int → R) (m : Mem R) : Prop where
  dims : DimsOK d
  conn : ConnOK d m
  mesh : m.mesh = M
  f : m.sl .f_vertex 0 0 = f

theorem HSetup.static {d : Dims} {M : Mesh R} {f : Int → R} {m m' : Mem R} (h : HSetup d M f m)
    (hs : Static m' m) : HSetup d M f m' where
  dims := h.dims
  conn := h.conn.congr hs.int
  mesh := by rw [hs.mesh, h.mesh]
  f := by rw [← h.f]; unfold Mem.sl; rw [hs.real .f_vertex rfl]

theorem HSetup.ok {d : Dims} {M : Mesh R} {f : Int → R} {m : Mem R} (h : HSetup d M f m) :
    MeshOK d M := h.mesh ▸ h.conn.mesh

/-- The auxiliary views hold the functions of the state `s`. -/
structure HAuxOK (d : Dims) (M : Mesh R) (f : Int → R) (s : Fld R) (m : Mem R) : Prop where
  mean : ∀ k, 0 ≤ k → k < d.nlayers → EqOn d.nedges (m.sl .mean_h_edge 0 k) (HSys.flux M s k)
  flux : ∀ k, 0 ≤ k → k < d.nlayers → EqOn d.nedges (m.sl .flux_h_edge 0 k) (HSys.flux M s k)
  rv : ∀ k, 0 ≤ k → k < d.nlayers → EqOn d.nvertices (m.sl .rvort_vertex 0 k) (HSys.rv M s k)
  nrvE : ∀ k, 0 ≤ k → k < d.nlayers → EqOn d.nedges (m.sl .norm_rvort_edge 0 k) (HSys.nrvE M s k)
  npvE : ∀ k, 0 ≤ k → k < d.nlayers → EqOn d.nedges (m.sl .norm_pvort_edge 0 k) (HSys.npvE M f s k)
  ke : ∀ k, 0 ≤ k → k < d.nlayers → EqOn d.ncells (m.sl .ke_cell 0 k) (HSys.keC M s k)
  div : ∀ k, 0 ≤ k → k < d.nlayers → EqOn d.ncells (m.sl .vel_div_cell 0 k) (HSys.divC M s k)
  ntr : ∀ l k, 0 ≤ l → l < d.ntracers → 0 ≤ k → k < d.nlayers →
    EqOn d.ncells (m.sl .norm_tr_cell l k) (HSys.ntrC s l k)

section

variable {d : Dims} {M : Mesh R} {f : Int → R} {m : Mem R}

theorem HAuxOK.of_agree {s : Fld R} {m' : Mem R} {A : RArr → Bool} (h : HAuxOK d M f s m)
    (ha : Agree A m' m) (hA : ∀ b, auxAll b = true → A b = false) : HAuxOK d M f s m' := by
  have e : ∀ b l k, auxAll b = true → m'.sl b l k = m.sl b l k := by
    intro b l k hb; unfold Mem.sl; rw [ha.real b (hA b hb)]
  constructor
  · intro k h2 h3; rw [e _ _ _ rfl]; exact h.mean k h2 h3
  · intro k h2 h3; rw [e _ _ _ rfl]; exact h.flux k h2 h3
  · intro k h2 h3; rw [e _ _ _ rfl]; exact h.rv k h2 h3
  · intro k h2 h3; rw [e _ _ _ rfl]; exact h.nrvE k h2 h3
  · intro k h2 h3; rw [e _ _ _ rfl]; exact h.npvE k h2 h3
  · intro k h2 h3; rw [e _ _ _ rfl]; exact h.ke k h2 h3
  · intro k h2 h3; rw [e _ _ _ rfl]; exact h.div k h2 h3
  · intro l k g0 g1 h2 h3; rw [e _ _ _ rfl]; exact h.ntr l k g0 g1 h2 h3

/-- `compute_auxiliary_variables` is safe and fills the auxiliary views. -/
theorem h_aux_runs (hS : HSetup d M f m) (st : StateId) :
    ∃ m', Runs d (h_aux d st) m m' ∧ Agree auxAll m' m ∧ HAuxOK d M f (m.fld st) m' := by
  have hd := hS.dims
  have c1 : Ctx d m auxV := ctx_of hd hS.conn fun b h => isAux_dyn (auxAll_aux (auxV_sub h))
  have r1 := par2E_runs (A := auxV) (n := d.nvertices) (d := d) (by
      intro a l i k ha hb
      cases a <;> simp only [auxV, Bool.false_eq_true] at ha <;> exact inE rfl hb)
    (fun i k hi hk => op_vertex (f := .f_vertex) (h := .h_cell st) (vn := .vn_edge st) c1
      rfl rfl rfl rfl rfl rfl rfl rfl rfl hi hk)
  generalize hm1 : m.upd (RegA d auxV) _ = m1 at r1
  have ag1 : Agree auxV m1 m := by rw [← hm1]; exact (Agree.refl _ m).upd _ fun _ _ _ _ h => h.1
  have v1 : ∀ i k, 0 ≤ i → i < d.nvertices → 0 ≤ k → k < d.nlayers →
      m1.real .rvort_vertex 0 i k = HSys.rv M (m.fld st) k i ∧
      m1.real .norm_rvort_vertex 0 i k = HSys.nrvV M (m.fld st) k i ∧
      m1.real .norm_pvort_vertex 0 i k = HSys.npvV M f (m.fld st) k i := by
    intro i k h0 h1 h2 h3
    rw [← hm1, Mem.upd_on (P := RegA d auxV) ⟨rfl, inbE rfl ⟨h0, h1⟩ ⟨h2, h3⟩⟩,
      Mem.upd_on (P := RegA d auxV) ⟨rfl, inbE rfl ⟨h0, h1⟩ ⟨h2, h3⟩⟩,
      Mem.upd_on (P := RegA d auxV) ⟨rfl, inbE rfl ⟨h0, h1⟩ ⟨h2, h3⟩⟩]
    simp only [eff3, eff2, eff, if_true, reduceCtorEq, if_false, hS.mesh, hS.f]
    exact ⟨rfl, rfl, rfl⟩
  have s1 : Static m1 m := ag1.mono fun b h => isAux_dyn (auxAll_aux (auxV_sub h))
  have hS1 := hS.static s1
  have f1 : m1.fld st = m.fld st := fld_congr fun b hb => ag1.real b (by
    cases b <;> first | rfl | simp [inState] at hb)
  have c2 : Ctx d m1 auxC := ctx_of hd hS1.conn fun b h => isAux_dyn (auxAll_aux (auxC_sub h))
  have r2 := par2E_runs (A := auxC) (n := d.ncells) (d := d) (by
      intro a l i k ha hb
      cases a <;> simp only [auxC, Bool.false_eq_true] at ha <;>
        first | exact inE rfl hb | exact (inT rfl hb).2)
    (fun i k hi hk => op_cell (h := .h_cell st) (vn := .vn_edge st) (tr := .tr_cell st) c2
      rfl rfl rfl rfl rfl rfl rfl rfl rfl hi hk)
  generalize hm2 : m1.upd (RegA d auxC) _ = m2 at r2
  have ag2 : Agree auxC m2 m1 := by rw [← hm2]; exact (Agree.refl _ m1).upd _ fun _ _ _ _ h => h.1
  have v2 : ∀ i k, 0 ≤ i → i < d.ncells → 0 ≤ k → k < d.nlayers →
      m2.real .ke_cell 0 i k = HSys.keC M (m.fld st) k i ∧
      m2.real .vel_div_cell 0 i k = HSys.divC M (m.fld st) k i := by
    intro i k h0 h1 h2 h3
    rw [← hm2, Mem.upd_on (P := RegA d auxC) ⟨rfl, inbE rfl ⟨h0, h1⟩ ⟨h2, h3⟩⟩,
      Mem.upd_on (P := RegA d auxC) ⟨rfl, inbE rfl ⟨h0, h1⟩ ⟨h2, h3⟩⟩]
    simp only [eff2, eff, if_true, reduceCtorEq, if_false, hS1.mesh, ← f1]
    exact ⟨rfl, rfl⟩
  have v2t : ∀ l i k, 0 ≤ l → l < d.ntracers → 0 ≤ i → i < d.ncells → 0 ≤ k → k < d.nlayers →
      m2.real .norm_tr_cell l i k = HSys.ntrC (m.fld st) l k i := by
    intro l i k g0 g1 h0 h1 h2 h3
    rw [← hm2, Mem.upd_on (P := RegA d auxC) ⟨rfl, inbT rfl ⟨g0, g1⟩ ⟨h0, h1⟩ ⟨h2, h3⟩⟩]
    simp only [eff2, eff, if_true, reduceCtorEq, if_false, hS1.mesh, ← f1]
    rw [if_pos ⟨g0, g1⟩]
    rfl
  have s2 : Static m2 m1 := ag2.mono fun b h => isAux_dyn (auxAll_aux (auxC_sub h))
  have hS2 := hS1.static s2
  have f2 : m2.fld st = m1.fld st := fld_congr fun b hb => ag2.real b (by
    cases b <;> first | rfl | simp [inState] at hb)
  have c3 : Ctx d m2 auxE := ctx_of hd hS2.conn fun b h => isAux_dyn (auxAll_aux (auxE_sub h))
  have r3 := par2E_runs (A := auxE) (n := d.nedges) (d := d) (by
      intro a l i k ha hb
      cases a <;> simp only [auxE, Bool.false_eq_true] at ha <;> exact inE rfl hb)
    (fun i k hi hk => op_edge (h := .h_cell st) c3 rfl rfl rfl rfl rfl rfl rfl rfl hi hk)
  generalize hm3 : m2.upd (RegA d auxE) _ = m3 at r3
  have ag3 : Agree auxE m3 m2 := by rw [← hm3]; exact (Agree.refl _ m2).upd _ fun _ _ _ _ h => h.1
  have v3 : ∀ i k, 0 ≤ i → i < d.nedges → 0 ≤ k → k < d.nlayers →
      m3.real .mean_h_edge 0 i k = HSys.flux M (m.fld st) k i ∧
      m3.real .flux_h_edge 0 i k = HSys.flux M (m.fld st) k i ∧
      m3.real .norm_rvort_edge 0 i k = HFn.vedge M (m2.sl .norm_rvort_vertex 0 k) i ∧
      m3.real .norm_pvort_edge 0 i k = HFn.vedge M (m2.sl .norm_pvort_vertex 0 k) i := by
    intro i k h0 h1 h2 h3
    rw [← hm3, Mem.upd_on (P := RegA d auxE) ⟨rfl, inbE rfl ⟨h0, h1⟩ ⟨h2, h3⟩⟩,
      Mem.upd_on (P := RegA d auxE) ⟨rfl, inbE rfl ⟨h0, h1⟩ ⟨h2, h3⟩⟩,
      Mem.upd_on (P := RegA d auxE) ⟨rfl, inbE rfl ⟨h0, h1⟩ ⟨h2, h3⟩⟩,
      Mem.upd_on (P := RegA d auxE) ⟨rfl, inbE rfl ⟨h0, h1⟩ ⟨h2, h3⟩⟩]
    simp only [eff2, eff, if_true, reduceCtorEq, if_false, hS2.mesh, ← f1, ← f2]
    refine ⟨?_, ?_, ?_, ?_⟩ <;> trivial
  have hA3 : ∀ b, auxE b = false → m3.real b = m2.real b := ag3.real
  have hA2 : ∀ b, auxC b = false → m2.real b = m1.real b := ag2.real
  have w1 : ∀ k, 0 ≤ k → k < d.nlayers →
      EqOn d.nvertices (m2.sl .norm_rvort_vertex 0 k) (HSys.nrvV M (m.fld st) k) := by
    intro k h2 h3 i h0 h1
    rw [← (v1 i k h0 h1 h2 h3).2.1]; unfold Mem.sl; rw [hA2 _ rfl]
  have w2 : ∀ k, 0 ≤ k → k < d.nlayers →
      EqOn d.nvertices (m2.sl .norm_pvort_vertex 0 k) (HSys.npvV M f (m.fld st) k) := by
    intro k h2 h3 i h0 h1
    rw [← (v1 i k h0 h1 h2 h3).2.2]; unfold Mem.sl; rw [hA2 _ rfl]
  refine ⟨m3, Runs.cons r1 (Runs.cons r2 (Runs.single r3)), ?_, ?_⟩
  · exact (ag3.mono fun _ h => auxE_sub h).trans ((ag2.mono fun _ h => auxC_sub h).trans
      (ag1.mono fun _ h => auxV_sub h))
  · constructor
    · intro k h2 h3 i h0 h1; exact (v3 i k h0 h1 h2 h3).1
    · intro k h2 h3 i h0 h1; exact (v3 i k h0 h1 h2 h3).2.1
    · intro k h2 h3 i h0 h1
      rw [← (v1 i k h0 h1 h2 h3).1]; unfold Mem.sl; rw [hA3 _ rfl, hA2 _ rfl]
    · intro k h2 h3 i h0 h1
      exact (v3 i k h0 h1 h2 h3).2.2.1.trans (hl_vedge hS.ok (w1 k h2 h3) i h0 h1)
    · intro k h2 h3 i h0 h1
      exact (v3 i k h0 h1 h2 h3).2.2.2.trans (hl_vedge hS.ok (w2 k h2 h3) i h0 h1)
    · intro k h2 h3 i h0 h1
      rw [← (v2 i k h0 h1 h2 h3).1]; unfold Mem.sl; rw [hA3 _ rfl]
    · intro k h2 h3 i h0 h1
      rw [← (v2 i k h0 h1 h2 h3).2]; unfold Mem.sl; rw [hA3 _ rfl]
    · intro l k g0 g1 h2 h3 i h0 h1
      rw [← v2t l i k g0 g1 h0 h1 h2 h3]; unfold Mem.sl; rw [hA3 _ rfl]

theorem h_h_runs (hS : HSetup d M f m) {s : Fld R} (ha : HAuxOK d M f s m) (mode : AddMode)
    {tn st : StateId} (hne : st ≠ tn) (hst : m.fld st = s) :
    ∃ m', Runs d (h_compute_h d mode tn st) m m' ∧ Agree (only (.h_cell tn)) m' m ∧
      ∀ c k, 0 ≤ c → c < d.ncells → 0 ≤ k → k < d.nlayers →
        m'.real (.h_cell tn) 0 c k = putm mode (m.real (.h_cell tn) 0 c k)
          (HFn.htend M (HSys.flux M s k) (Sys.vk s k) c) := by
  have hd := hS.dims
  have C : Ctx d m (only (.h_cell tn)) := ctx_of hd hS.conn fun b h => state_dyn rfl h
  have r := par2E_runs (A := only (.h_cell tn)) (n := d.ncells) (d := d) (by
      intro a l i k h1 h2; rw [only_eq h1] at h2; exact inE rfl h2)
    (fun i k hi hk => op_htend (mode := mode) (tend := .h_cell tn) (vn := .vn_edge st)
        C (only_self _) (only_ne (by simp)) (only_ne (by simp)) rfl rfl hi hk)
  refine ⟨_, Runs.single r, (Agree.refl _ m).upd _ fun _ _ _ _ h => h.1, ?_⟩
  intro c k h0 h1 h2 h3
  rw [Mem.upd_on (P := RegA d (only (.h_cell tn))) ⟨only_self _, inbE rfl ⟨h0, h1⟩ ⟨h2, h3⟩⟩]
  have e := hl_htend (x' := m.sl (.vn_edge st) 0 k) (y' := Sys.vk s k) hS.ok (ha.flux k h2 h3)
    (by rw [← hst]; exact EqOn.refl _ _) c h0 h1
  simp only [eff, if_true, hS.mesh, e]

theorem h_hyper_runs (hS : HSetup d M f m) {s : Fld R} (ha : HAuxOK d M f s m) {st : StateId}
    (hst : m.fld st = s) :
    ∃ m', Runs d [par2 d.nedges d.nlayers h_del2u, par2 d.ncells d.nlayers h_del2div,
        par2 d.nvertices d.nlayers (h_del2rvort (.vn_edge st))] m m' ∧ Agree hyp m' m ∧
      (∀ k, 0 ≤ k → k < d.nlayers →
        EqOn d.nvertices (m'.sl .vel_del2_rvort_vertex 0 k) (HSys.rv M s k)) ∧
      (∀ k, 0 ≤ k → k < d.nlayers →
        EqOn d.ncells (m'.sl .vel_del2_div_cell 0 k) (HSys.d2C M s k)) := by
  have hd := hS.dims
  have sub1 : ∀ b, only .vel_del2_edge b = true → hyp b = true := fun b h => by
    rw [only_eq h]; rfl
  have sub2 : ∀ b, only .vel_del2_rvort_vertex b = true → hyp b = true := fun b h => by
    rw [only_eq h]; rfl
  have sub3 : ∀ b, only .vel_del2_div_cell b = true → hyp b = true := fun b h => by
    rw [only_eq h]; rfl
  have c1 : Ctx d m (only .vel_del2_edge) :=
    ctx_of hd hS.conn fun b h => isAux_dyn (hyp_aux (sub1 b h))
  have r1 := par2E_runs (A := only .vel_del2_edge) (n := d.nedges) (d := d) (by
      intro a l i k h1 h2; rw [only_eq h1] at h2; exact inE rfl h2)
    (fun i k hi hk => op_del2u c1
      (only_self _) (only_ne (by decide)) (only_ne (by decide)) hi hk)
  generalize hm1 : m.upd (RegA d (only .vel_del2_edge)) _ = m1 at r1
  have ag1 : Agree (only .vel_del2_edge) m1 m := by
    rw [← hm1]; exact (Agree.refl _ m).upd _ fun _ _ _ _ h => h.1
  have v1 : ∀ k, 0 ≤ k → k < d.nlayers → EqOn d.nedges (m1.sl .vel_del2_edge 0 k) (HSys.d2E M s k) := by
    intro k h2 h3 i h0 h1
    have e := hl_del2 hS.ok (ha.div k h2 h3) (ha.rv k h2 h3) i h0 h1
    unfold Mem.sl
    rw [← hm1, Mem.upd_on (P := RegA d (only .vel_del2_edge))
      ⟨only_self _, inbE rfl ⟨h0, h1⟩ ⟨h2, h3⟩⟩]
    simp only [eff, if_true, hS.mesh, e]
    rfl
  have hS1 := hS.static (ag1.mono fun b h => isAux_dyn (hyp_aux (sub1 b h)))
  have c2 : Ctx d m1 (only .vel_del2_div_cell) :=
    ctx_of hd hS1.conn fun b h => isAux_dyn (hyp_aux (sub3 b h))
  have r2 := par2E_runs (A := only .vel_del2_div_cell) (n := d.ncells) (d := d) (by
      intro a l i k h1 h2; rw [only_eq h1] at h2; exact inE rfl h2)
    (fun i k hi hk => op_del2div c2 (only_self _) (only_ne (by decide)) hi hk)
  generalize hm2 : m1.upd (RegA d (only .vel_del2_div_cell)) _ = m2 at r2
  have ag2 : Agree (only .vel_del2_div_cell) m2 m1 := by
    rw [← hm2]; exact (Agree.refl _ m1).upd _ fun _ _ _ _ h => h.1
  have v2 : ∀ k, 0 ≤ k → k < d.nlayers →
      EqOn d.ncells (m2.sl .vel_del2_div_cell 0 k) (HSys.d2C M s k) := by
    intro k h2 h3 i h0 h1
    have e := hl_div hS1.ok (v1 k h2 h3) i h0 h1
    unfold Mem.sl
    rw [← hm2, Mem.upd_on (P := RegA d (only .vel_del2_div_cell))
      ⟨only_self _, inbE rfl ⟨h0, h1⟩ ⟨h2, h3⟩⟩]
    simp only [eff, if_true, hS1.mesh, e]
    rfl
  have hS2 := hS1.static (ag2.mono fun b h => isAux_dyn (hyp_aux (sub3 b h)))
  have c3 : Ctx d m2 (only .vel_del2_rvort_vertex) :=
    ctx_of hd hS2.conn fun b h => isAux_dyn (hyp_aux (sub2 b h))
  have r3 := par2E_runs (A := only .vel_del2_rvort_vertex) (n := d.nvertices) (d := d) (by
      intro a l i k h1 h2; rw [only_eq h1] at h2; exact inE rfl h2)
    (fun i k hi hk => op_del2rvort (vn := .vn_edge st) c3 (only_self _) (only_ne (by simp)) rfl
      hi hk)
  generalize hm3 : m2.upd (RegA d (only .vel_del2_rvort_vertex)) _ = m3 at r3
  have ag3 : Agree (only .vel_del2_rvort_vertex) m3 m2 := by
    rw [← hm3]; exact (Agree.refl _ m2).upd _ fun _ _ _ _ h => h.1
  refine ⟨m3, Runs.cons r1 (Runs.cons r2 (Runs.single r3)), ?_, ?_, ?_⟩
  · exact (ag3.mono sub2).trans ((ag2.mono sub3).trans (ag1.mono sub1))
  · intro k h2 h3 i h0 h1
    have ev : m2.sl (.vn_edge st) 0 k = Sys.vk s k := by
      rw [← hst]; unfold Mem.sl Sys.vk Mem.fld
      rw [ag2.real _ (only_ne (by simp)), ag1.real _ (only_ne (by simp))]
    unfold Mem.sl
    rw [← hm3, Mem.upd_on (P := RegA d (only .vel_del2_rvort_vertex))
      ⟨only_self _, inbE rfl ⟨h0, h1⟩ ⟨h2, h3⟩⟩]
    simp only [eff, if_true, hS2.mesh, ev]
    rfl
  · intro k h2 h3 i h0 h1
    rw [← v2 k h2 h3 i h0 h1]; unfold Mem.sl; rw [ag3.real _ (only_ne (by decide))]

theorem h_vn_runs (hS : HSetup d M f m) {s : Fld R} (ha : HAuxOK d M f s m) (prm : Params R)
    (mode : AddMode) {tn st : StateId} (hne : st ≠ tn) (hst : m.fld st = s) :
    ∃ m', Runs d (h_compute_vn d prm mode tn st) m m' ∧ Agree (vnSet tn) m' m ∧
      ∀ e k, 0 ≤ e → e < d.nedges → 0 ≤ k → k < d.nlayers →
        m'.real (.vn_edge tn) 0 e k = putm mode (m.real (.vn_edge tn) 0 e k)
          (HSys.vnTend M f prm s k e) := by
  have hd := hS.dims
  obtain ⟨m1, r1, ag1, hv, hc⟩ : ∃ m1, Runs d (if Scalar.lt (lit 0) prm.visc_del4 then
      [par2 d.nedges d.nlayers h_del2u, par2 d.ncells d.nlayers h_del2div,
        par2 d.nvertices d.nlayers (h_del2rvort (.vn_edge st))] else []) m m1 ∧
      Agree hyp m1 m ∧
      (Scalar.lt (lit 0) prm.visc_del4 = true → ∀ k, 0 ≤ k → k < d.nlayers →
        EqOn d.nvertices (m1.sl .vel_del2_rvort_vertex 0 k) (HSys.rv M s k)) ∧
      (Scalar.lt (lit 0) prm.visc_del4 = true → ∀ k, 0 ≤ k → k < d.nlayers →
        EqOn d.ncells (m1.sl .vel_del2_div_cell 0 k) (HSys.d2C M s k)) := by
    cases hb : Scalar.lt (lit 0) prm.visc_del4 with
    | true =>
      obtain ⟨m1, r, ag, h1, h2⟩ := h_hyper_runs hS ha hst
      exact ⟨m1, by simpa using r, ag, fun _ => h1, fun _ => h2⟩
    | false => exact ⟨m, by simpa using Runs.nil m, Agree.refl _ _, by simp, by simp⟩
  have hS1 := hS.static (ag1.mono fun b h => isAux_dyn (hyp_aux h))
  have ha1 : HAuxOK d M f s m1 := ha.of_agree ag1 (by
    intro b hb; cases b <;> first | rfl | simp [auxAll, auxV, auxC, auxE] at hb)
  have hst1 : m1.fld st = s := by
    rw [← hst]; exact fld_congr fun b hb => ag1.real b (by
      cases b <;> first | rfl | simp [inState] at hb)
  have C : Ctx d m1 (only (.vn_edge tn)) := ctx_of hd hS1.conn fun b h => state_dyn rfl h
  have hvn : only (.vn_edge tn) (.vn_edge st) = false := only_ne (by simpa using hne)
  have r := par2E_runs (A := only (.vn_edge tn)) (n := d.nedges) (d := d) (by
      intro a l i k h1 h2; rw [only_eq h1] at h2; exact inE rfl h2)
    (fun i k hi hk => op_vtend (prm := prm) (mode := mode) (tend := .vn_edge tn) (h := .h_cell st)
      (vn := .vn_edge st) C (only_self _) (only_ne (by simp)) hvn (only_ne (by simp))
      (only_ne (by simp)) (only_ne (by simp)) (only_ne (by simp)) (only_ne (by simp))
      (only_ne (by simp)) (only_ne (by simp)) (only_ne (by simp)) rfl rfl rfl hi hk)
  refine ⟨_, Runs.append r1 (Runs.single r), (Agree.upd (ag1.mono ?_) _ ?_), ?_⟩
  · intro b h; simp [vnSet, h]
  · rintro a l i k ⟨h, -⟩; simp [vnSet, h]
  intro e k h0 h1 h2 h3
  rw [Mem.upd_on (P := RegA d (only (.vn_edge tn)))
    ⟨only_self _, inbE rfl ⟨h0, h1⟩ ⟨h2, h3⟩⟩]
  rw [← ag1.real (.vn_edge tn) rfl]
  have evn : EqOn d.nedges (m1.sl (.vn_edge st) 0 k) (Sys.vk s k) := by
    rw [← hst1]; exact EqOn.refl _ _
  have eh : EqOn d.ncells (m1.sl (.h_cell st) 0 k) (Sys.hk s k) := by
    rw [← hst1]; exact EqOn.refl _ _
  have e1 := hl_vt0 (g := prm.grav) hS.ok (ha1.nrvE k h2 h3) (ha1.npvE k h2 h3) (ha1.flux k h2 h3)
    evn (ha1.ke k h2 h3) eh e h0 h1
  have e2 := hl_lap hS.ok (ha1.div k h2 h3) (ha1.rv k h2 h3) e h0 h1
  simp only [eff, if_true, hS1.mesh, HSys.vnTend, HFn.vt, e1, e2]
  cases hb : Scalar.lt (lit 0) prm.visc_del4 with
  | true => rw [hl_lap hS.ok (hc hb k h2 h3) (hv hb k h2 h3) e h0 h1]
  | false => rfl

theorem h_tr_runs (hS : HSetup d M f m) {s : Fld R} (ha : HAuxOK d M f s m) (prm : Params R)
    (mode : AddMode) {tn st : StateId} (hne : st ≠ tn) (hst : m.fld st = s) :
    ∃ m', Runs d (h_compute_tr d prm mode tn st) m m' ∧ Agree (trSet tn) m' m ∧
      ∀ l c k, 0 ≤ l → l < d.ntracers → 0 ≤ c → c < d.ncells → 0 ≤ k → k < d.nlayers →
        m'.real (.tr_cell tn) l c k = putm mode (m.real (.tr_cell tn) l c k)
          (HSys.trTend M prm s l k c) := by
  have hd := hS.dims
  have sub : ∀ b, only .tracer_del2_cell b = true → isAux b = true := fun b h => by
    rw [only_eq h]; rfl
  obtain ⟨m1, r1, ag1, ht⟩ : ∃ m1, Runs d (if Scalar.lt (lit 0) prm.eddy_diff4 then
        [par3 d.ntracers d.ncells d.nlayers h_trdel2] else []) m m1 ∧
      Agree (only .tracer_del2_cell) m1 m ∧
      (Scalar.lt (lit 0) prm.eddy_diff4 = true →
        ∀ l k, 0 ≤ l → l < d.ntracers → 0 ≤ k → k < d.nlayers →
        EqOn d.ncells (m1.sl .tracer_del2_cell l k) (HSys.t2C M s l k)) := by
    cases hb : Scalar.lt (lit 0) prm.eddy_diff4 with
    | true =>
      have C : Ctx d m (only .tracer_del2_cell) :=
        ctx_of hd hS.conn fun b h => isAux_dyn (sub b h)
      have r1 := par3E_runs (A := only .tracer_del2_cell) (n := d.ncells) (d := d) (by
          intro a l i k h1 h2; rw [only_eq h1] at h2; exact inT rfl h2)
        (fun l i k hl hi hk => op_trdel2 C
          (only_self _) (only_ne (by decide)) (only_ne (by decide)) hl hi hk)
      refine ⟨_, Runs.single r1, (Agree.refl _ m).upd _ fun _ _ _ _ h => h.1, ?_⟩
      intro _ l k g0 g1 h2 h3 i h0 h1
      have e := hl_trdel2 hS.ok (ha.ntr l k g0 g1 h2 h3) (ha.mean k h2 h3) i h0 h1
      simp only [Mem.sl]
      rw [Mem.upd_on (P := RegA d (only .tracer_del2_cell))
        ⟨only_self _, inbT rfl ⟨g0, g1⟩ ⟨h0, h1⟩ ⟨h2, h3⟩⟩]
      simp only [eff, if_true, hS.mesh]
      exact e
    | false => exact ⟨m, by simpa using Runs.nil m, Agree.refl _ _, by simp⟩
  have hS1 := hS.static (ag1.mono fun b h => isAux_dyn (sub b h))
  have ha1 : HAuxOK d M f s m1 := ha.of_agree ag1 (by
    intro b hb; cases b <;> first | rfl | simp [auxAll, auxV, auxC, auxE] at hb)
  have hst1 : m1.fld st = s := by
    rw [← hst]; exact fld_congr fun b hb => ag1.real b (by
      cases b <;> first | rfl | simp [inState] at hb)
  have C : Ctx d m1 (only (.tr_cell tn)) := ctx_of hd hS1.conn fun b h => state_dyn rfl h
  have r := par3E_runs (A := only (.tr_cell tn)) (n := d.ncells) (d := d) (by
      intro a l i k h1 h2; rw [only_eq h1] at h2; exact inT rfl h2)
    (fun l i k hl hi hk => op_trtend (prm := prm) (mode := mode) (tend := .tr_cell tn)
      (vn := .vn_edge st) C (only_self _) (only_ne (by simp)) (only_ne (by simp))
      (only_ne (by simp)) (only_ne (by simp)) (only_ne (by simp)) rfl rfl hl hi hk)
  refine ⟨_, Runs.append r1 (Runs.single r), (Agree.upd (ag1.mono ?_) _ ?_), ?_⟩
  · intro b h; simp [trSet, h]
  · rintro a l i k ⟨h, -⟩; simp [trSet, h]
  intro l c k g0 g1 h0 h1 h2 h3
  rw [Mem.upd_on (P := RegA d (only (.tr_cell tn)))
    ⟨only_self _, inbT rfl ⟨g0, g1⟩ ⟨h0, h1⟩ ⟨h2, h3⟩⟩]
  rw [← ag1.real (.tr_cell tn) rfl]
  have evn : EqOn d.nedges (m1.sl (.vn_edge st) 0 k) (Sys.vk s k) := by
    rw [← hst1]; exact EqOn.refl _ _
  have e1 := hl_trtend (prm := prm) hS.ok (ha1.flux k h2 h3) (ha1.mean k h2 h3) evn
    (ha1.ntr l k g0 g1 h2 h3) (fun hb => ht hb l k g0 g1 h2 h3) c h0 h1
  simp only [eff, if_true, hS1.mesh, e1]
  rfl

/-- `ShallowWaterModelBase::compute_tendency` of the single-file implementation is safe, race free
and computes `HSys.tend`. -/
theorem h_compute_tendency_runs (hS : HSetup d M f m) (prm : Params R) (mode : AddMode)
    {tn st : StateId} (hne : st ≠ tn) (t : R) :
    ∃ m', Runs d (h_compute_tendency d (HModel.ofParams prm) mode tn st t) m m' ∧
      Agree (tendSet tn) m' m ∧
      EqFld d (m'.fld tn) (HSys.tend M f prm mode (m.fld tn) (m.fld st)) := by
  obtain ⟨m1, r1, ag1, ha1⟩ := h_aux_runs hS st
  have hS1 := hS.static (ag1.mono fun b h => isAux_dyn (auxAll_aux h))
  have e1 : ∀ b, isState b = true → m1.real b = m.real b := fun b hb => ag1.real b (by
    cases b <;> first | rfl | simp [isState] at hb)
  have hst1 : m1.fld st = m.fld st := fld_congr fun b hb => e1 b (by
    cases b <;> first | rfl | simp [inState] at hb)
  obtain ⟨m2, r2, ag2, v2⟩ : ∃ m2, Runs d (if prm.disable_h then [] else
      h_compute_h d mode tn st) m1 m2 ∧ Agree (only (.h_cell tn)) m2 m1 ∧
      ∀ c k, 0 ≤ c → c < d.ncells → 0 ≤ k → k < d.nlayers →
        m2.real (.h_cell tn) 0 c k = if prm.disable_h = true then m1.real (.h_cell tn) 0 c k
          else putm mode (m1.real (.h_cell tn) 0 c k)
            (HFn.htend M (HSys.flux M (m.fld st) k) (Sys.vk (m.fld st) k) c) := by
    cases hb : prm.disable_h with
    | true =>
      exact ⟨m1, by simpa using Runs.nil m1, Agree.refl _ _, fun _ _ _ _ _ _ => by simp⟩
    | false =>
      obtain ⟨m2, r, ag, v⟩ := h_h_runs hS1 ha1 mode hne hst1
      exact ⟨m2, by simpa using r, ag, fun c k h0 h1 h2 h3 => by
        simpa using v c k h0 h1 h2 h3⟩
  have hS2 := hS1.static (ag2.mono fun b h => state_dyn rfl h)
  have ha2 := ha1.of_agree ag2 (by
    intro b hb; cases b <;> first | rfl | simp [auxAll, auxV, auxC, auxE] at hb)
  have hst2 : m2.fld st = m.fld st := by
    rw [← hst1]; exact fld_congr fun b hb => ag2.real b (by
      cases b <;> first
        | rfl
        | (simp [inState] at hb; done)
        | (simp only [inState, decide_eq_true_eq] at hb; subst hb
           exact only_ne (by simpa using hne)))
  obtain ⟨m3, r3, ag3, v3⟩ : ∃ m3, Runs d (if prm.disable_vn then [] else
      h_compute_vn d prm mode tn st) m2 m3 ∧ Agree (vnSet tn) m3 m2 ∧
      ∀ c k, 0 ≤ c → c < d.nedges → 0 ≤ k → k < d.nlayers →
        m3.real (.vn_edge tn) 0 c k = if prm.disable_vn = true then
          m2.real (.vn_edge tn) 0 c k
          else putm mode (m2.real (.vn_edge tn) 0 c k) (HSys.vnTend M f prm (m.fld st) k c) := by
    cases hb : prm.disable_vn with
    | true =>
      exact ⟨m2, by simpa using Runs.nil m2, Agree.refl _ _, fun _ _ _ _ _ _ => by simp⟩
    | false =>
      obtain ⟨m3, r, ag, v⟩ := h_vn_runs hS2 ha2 prm mode hne hst2
      exact ⟨m3, by simpa using r, ag, fun c k h0 h1 h2 h3 => by
        simpa using v c k h0 h1 h2 h3⟩
  have vnd : ∀ b, vnSet tn b = true → isDyn b = true := by
    intro b h
    simp only [vnSet, Bool.or_eq_true] at h
    rcases h with h | h
    · exact isAux_dyn (hyp_aux h)
    · exact state_dyn rfl h
  have hS3 := hS2.static (ag3.mono vnd)
  have ha3 := ha2.of_agree ag3 (by
    intro b hb; cases b <;> first | rfl | simp [auxAll, auxV, auxC, auxE] at hb)
  have hst3 : m3.fld st = m.fld st := by
    rw [← hst2]; exact fld_congr fun b hb => ag3.real b (by
      cases b <;> first
        | rfl
        | (simp [inState] at hb; done)
        | (simp only [inState, decide_eq_true_eq] at hb; subst hb
           simp [vnSet, hyp, only]; done)
        | (simp only [inState, decide_eq_true_eq] at hb; subst hb
           simpa [vnSet, hyp, only] using hne))
  obtain ⟨m4, r4, ag4, v4⟩ : ∃ m4, Runs d (if 0 < d.ntracers then
      h_compute_tr d prm mode tn st else []) m3 m4 ∧ Agree (trSet tn) m4 m3 ∧
      ∀ l c k, 0 ≤ l → l < d.ntracers → 0 ≤ c → c < d.ncells → 0 ≤ k → k < d.nlayers →
        m4.real (.tr_cell tn) l c k =
          putm mode (m3.real (.tr_cell tn) l c k) (HSys.trTend M prm (m.fld st) l k c) := by
    by_cases hb : 0 < d.ntracers
    · obtain ⟨m4, r, ag, v⟩ := h_tr_runs hS3 ha3 prm mode hne hst3
      exact ⟨m4, by simpa [hb] using r, ag, v⟩
    · exact ⟨m3, by simpa [hb] using Runs.nil m3, Agree.refl _ _,
        fun l c k h0 h1 => by omega⟩
  have s1 : ∀ b, auxAll b = true → tendSet tn b = true := fun b h => by
    simp [tendSet, auxAll_aux h]
  have s2 : ∀ b, only (.h_cell tn) b = true → tendSet tn b = true := fun b h => by
    rw [only_eq h]; simp [tendSet, inState]
  have s3 : ∀ b, vnSet tn b = true → tendSet tn b = true := fun b h => by
    simp only [vnSet, Bool.or_eq_true] at h
    rcases h with h | h
    · simp [tendSet, hyp_aux h]
    · rw [only_eq h]; simp [tendSet, inState]
  have s4 : ∀ b, trSet tn b = true → tendSet tn b = true := fun b h => by
    simp only [trSet, Bool.or_eq_true] at h
    rcases h with h | h
    · rw [only_eq h]; rfl
    · rw [only_eq h]; simp [tendSet, inState]
  refine ⟨m4, Runs.append r1 (Runs.append r2 (Runs.append r3
    (Runs.append r4 (Runs.nil m4)))), ?_, ?_⟩
  · exact (ag4.mono s4).trans ((ag3.mono s3).trans ((ag2.mono s2).trans (ag1.mono s1)))
  · constructor
    · intro c k h0 h1 h2 h3
      simp only [Mem.fld]
      rw [ag4.real (.h_cell tn) (by simp [trSet, only]),
        ag3.real (.h_cell tn) (by simp [vnSet, hyp, only]), v2 c k h0 h1 h2 h3, e1 (.h_cell tn) rfl]
      rfl
    · intro c k h0 h1 h2 h3
      simp only [Mem.fld]
      rw [ag4.real (.vn_edge tn) (by simp [trSet, only]), v3 c k h0 h1 h2 h3,
        ag2.real (.vn_edge tn) (by simp [only]), e1 (.vn_edge tn) rfl]
      rfl
    · intro l c k g0 g1 h0 h1 h2 h3
      simp only [Mem.fld]
      rw [v4 l c k g0 g1 h0 h1 h2 h3,
        ag3.real (.tr_cell tn) (by simp [vnSet, hyp, only]),
        ag2.real (.tr_cell tn) (by simp [only]), e1 (.tr_cell tn) rfl]
      rfl

/-- views written by the linear model's `compute_tendency` -/
def linSet (tn : StateId) (b : RArr) : Bool := only (.h_cell tn) b || only (.vn_edge tn) b

/-- The linear model's `compute_tendency` is safe, race free and computes `HFn.linH`, `HFn.linV`. -/
theorem lin_compute_tendency_runs (hd : DimsOK d) (hc : ConnOK d m) (sw : LinModel R)
    (mode : AddMode) {tn st : StateId} (hne : st ≠ tn) :
    ∃ m', Runs d (lin_compute_tendency d sw mode tn st) m m' ∧ Agree (linSet tn) m' m ∧
      (∀ c k, 0 ≤ c → c < d.ncells → 0 ≤ k → k < d.nlayers →
        m'.real (.h_cell tn) 0 c k = if sw.prm.disable_h = true then m.real (.h_cell tn) 0 c k else
          putm mode (m.real (.h_cell tn) 0 c k)
            (HFn.linH m.mesh sw.h0 (Sys.vk (m.fld st) k) c)) ∧
      (∀ e k, 0 ≤ e → e < d.nedges → 0 ≤ k → k < d.nlayers →
        m'.real (.vn_edge tn) 0 e k = if sw.prm.disable_vn = true then m.real (.vn_edge tn) 0 e k
          else putm mode (m.real (.vn_edge tn) 0 e k)
            (HFn.linV m.mesh sw.prm.grav (m.sl .f_edge 0 0) (Sys.hk (m.fld st) k)
              (Sys.vk (m.fld st) k) e)) := by
  obtain ⟨m1, r1, ag1, v1⟩ : ∃ m1, Runs d (if sw.prm.disable_h then [] else
      [par2 d.ncells d.nlayers (lin_htend sw.h0 mode (.h_cell tn) (.vn_edge st))]) m m1 ∧
      Agree (only (.h_cell tn)) m1 m ∧
      ∀ c k, 0 ≤ c → c < d.ncells → 0 ≤ k → k < d.nlayers →
        m1.real (.h_cell tn) 0 c k = if sw.prm.disable_h = true then m.real (.h_cell tn) 0 c k else
          putm mode (m.real (.h_cell tn) 0 c k)
            (HFn.linH m.mesh sw.h0 (Sys.vk (m.fld st) k) c) := by
    cases hb : sw.prm.disable_h with
    | true => exact ⟨m, by simpa using Runs.nil m, Agree.refl _ _, fun _ _ _ _ _ _ => by simp⟩
    | false =>
      have C : Ctx d m (only (.h_cell tn)) := ctx_of hd hc fun b h => state_dyn rfl h
      have r := par2E_runs (A := only (.h_cell tn)) (n := d.ncells) (d := d) (by
          intro a l i k h1 h2; rw [only_eq h1] at h2; exact inE rfl h2)
        (fun i k hi hk => op_linH (h0 := sw.h0) (mode := mode) (tend := .h_cell tn)
          (vn := .vn_edge st) C (only_self _) (only_ne (by simp)) rfl rfl hi hk)
      refine ⟨_, Runs.single r, (Agree.refl _ m).upd _ fun _ _ _ _ h => h.1, ?_⟩
      intro c k h0 h1 h2 h3
      rw [Mem.upd_on (P := RegA d (only (.h_cell tn))) ⟨only_self _, inbE rfl ⟨h0, h1⟩ ⟨h2, h3⟩⟩]
      simp only [eff, if_true, Bool.false_eq_true, if_false]
      rfl
  have st1 : Static m1 m := ag1.mono fun b h => state_dyn rfl h
  have hc1 := hc.congr st1.int
  obtain ⟨m2, r2, ag2, v2⟩ : ∃ m2, Runs d (if sw.prm.disable_vn then [] else
      [par2 d.nedges d.nlayers
        (lin_vtend sw.prm.grav mode (.vn_edge tn) (.h_cell st) (.vn_edge st))]) m1 m2 ∧
      Agree (only (.vn_edge tn)) m2 m1 ∧
      ∀ e k, 0 ≤ e → e < d.nedges → 0 ≤ k → k < d.nlayers →
        m2.real (.vn_edge tn) 0 e k = if sw.prm.disable_vn = true then m1.real (.vn_edge tn) 0 e k
          else putm mode (m1.real (.vn_edge tn) 0 e k)
            (HFn.linV m1.mesh sw.prm.grav (m1.sl .f_edge 0 0) (m1.sl (.h_cell st) 0 k)
              (m1.sl (.vn_edge st) 0 k) e) := by
    cases hb : sw.prm.disable_vn with
    | true => exact ⟨m1, by simpa using Runs.nil m1, Agree.refl _ _, fun _ _ _ _ _ _ => by simp⟩
    | false =>
      have C : Ctx d m1 (only (.vn_edge tn)) := ctx_of hd hc1 fun b h => state_dyn rfl h
      have r := par2E_runs (A := only (.vn_edge tn)) (n := d.nedges) (d := d) (by
          intro a l i k h1 h2; rw [only_eq h1] at h2; exact inE rfl h2)
        (fun i k hi hk => op_linV (grav := sw.prm.grav) (mode := mode) (tend := .vn_edge tn)
          (h := .h_cell st) (vn := .vn_edge st) C (only_self _) (only_ne (by simp))
          (only_ne (by simpa using hne)) (only_ne (by simp)) rfl rfl rfl hi hk)
      refine ⟨_, Runs.single r, (Agree.refl _ m1).upd _ fun _ _ _ _ h => h.1, ?_⟩
      intro c k h0 h1 h2 h3
      rw [Mem.upd_on (P := RegA d (only (.vn_edge tn))) ⟨only_self _, inbE rfl ⟨h0, h1⟩ ⟨h2, h3⟩⟩]
      simp only [eff, if_true, Bool.false_eq_true, if_false]
  have eh : m1.sl (.h_cell st) 0 = m.sl (.h_cell st) 0 := by
    unfold Mem.sl; rw [ag1.real _ (only_ne (by simpa using hne))]
  have ev : m1.sl (.vn_edge st) 0 = m.sl (.vn_edge st) 0 := by
    unfold Mem.sl; rw [ag1.real _ (only_ne (by simp))]
  have ef : m1.sl .f_edge 0 0 = m.sl .f_edge 0 0 := by
    unfold Mem.sl; rw [ag1.real _ (only_ne (by simp))]
  refine ⟨m2, Runs.append r1 r2, (ag2.mono ?_).trans (ag1.mono ?_), ?_, ?_⟩
  · intro b h; simp [linSet, h]
  · intro b h; simp [linSet, h]
  · intro c k h0 h1 h2 h3
    rw [ag2.real _ (only_ne (by simp)), v1 c k h0 h1 h2 h3]
  · intro e k h0 h1 h2 h3
    rw [v2 e k h0 h1 h2 h3, st1.mesh, eh, ev, ef, ag1.real (.vn_edge tn) (only_ne (by simp))]
    rfl

end

end Refine
end Omega
