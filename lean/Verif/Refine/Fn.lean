import Verif.Refine.Lanes
import Verif.Refine.MeshAll

/-!
# The kernels as functions

Every kernel of `Model/Kernels.lean` computes, for each row and layer, one of the functions below.
The functions keep the order and grouping of the floating-point operations of the code, so
refinement to them is bit-for-bit in any arithmetic.  `Fns` is the set of functions computed by one
build of the code; `scalarF` belongs to the default build.
-/

set_option linter.unusedSectionVars false
set_option linter.unusedVariables false

namespace Omega
namespace Refine

open Model

variable {R : Type} [Scalar R]

/-- The part of a mesh that the kernels read. -/
structure Mesh (R : Type) where
  neoc : Int → Int
  eoc : Int → Int → Int
  coe : Int → Int → Int
  voe : Int → Int → Int
  eov : Int → Int → Int
  cov : Int → Int → Int
  neoe : Int → Int
  eoe : Int → Int → Int
  areaCell : Int → R
  areaTri : Int → R
  dv : Int → R
  dc : Int → R
  signC : Int → Int → R
  signV : Int → Int → R
  kite : Int → Int → R
  woe : Int → Int → R
  mask : Int → Int → R
  sdel2 : Int → R
  sdel4 : Int → R

/-- The mesh held in a memory. -/
def _root_.Omega.Mem.mesh (m : Mem R) : Mesh R where
  neoc c := m.int .nedges_on_cell c 0
  eoc c j := m.int .edges_on_cell c j
  coe e s := m.int .cells_on_edge e s
  voe e s := m.int .vertices_on_edge e s
  eov v j := m.int .edges_on_vertex v j
  cov v j := m.int .cells_on_vertex v j
  neoe e := m.int .nedges_on_edge e 0
  eoe e j := m.int .edges_on_edge e j
  areaCell c := m.real .area_cell 0 c 0
  areaTri v := m.real .area_triangle 0 v 0
  dv e := m.real .dv_edge 0 e 0
  dc e := m.real .dc_edge 0 e 0
  signC c j := m.real .edge_sign_on_cell 0 c j
  signV v j := m.real .edge_sign_on_vertex 0 v j
  kite v j := m.real .kiteareas_on_vertex 0 v j
  woe e j := m.real .weights_on_edge 0 e j
  mask e k := m.real .edge_mask 0 e k
  sdel2 e := m.real .mesh_scaling_del2 0 e 0
  sdel4 e := m.real .mesh_scaling_del4 0 e 0

/-- One layer (of one tracer) of a view. -/
def _root_.Omega.Mem.sl (m : Mem R) (a : RArr) (l k : Int) : Int → R := fun i => m.real a l i k

/-- Valid connectivity. -/
structure MeshOK (d : Dims) (M : Mesh R) : Prop where
  neoc : ∀ c, 0 ≤ c → c < d.ncells → 0 ≤ M.neoc c ∧ M.neoc c ≤ 6
  eoc : ∀ c, 0 ≤ c → c < d.ncells → ∀ j, 0 ≤ j → j < M.neoc c → 0 ≤ M.eoc c j ∧ M.eoc c j < d.nedges
  coe : ∀ e, 0 ≤ e → e < d.nedges → ∀ s, 0 ≤ s → s < 2 → 0 ≤ M.coe e s ∧ M.coe e s < d.ncells
  voe : ∀ e, 0 ≤ e → e < d.nedges → ∀ s, 0 ≤ s → s < 2 → 0 ≤ M.voe e s ∧ M.voe e s < d.nvertices
  eov : ∀ v, 0 ≤ v → v < d.nvertices → ∀ s, 0 ≤ s → s < 3 → 0 ≤ M.eov v s ∧ M.eov v s < d.nedges
  cov : ∀ v, 0 ≤ v → v < d.nvertices → ∀ s, 0 ≤ s → s < 3 → 0 ≤ M.cov v s ∧ M.cov v s < d.ncells
  neoe : ∀ e, 0 ≤ e → e < d.nedges → 0 ≤ M.neoe e ∧ M.neoe e ≤ 12
  eoe : ∀ e, 0 ≤ e → e < d.nedges → ∀ j, 0 ≤ j → j < M.neoe e → 0 ≤ M.eoe e j ∧ M.eoe e j < d.nedges

theorem ConnOK.mesh {d : Dims} {m : Mem R} (h : ConnOK d m) : MeshOK d m.mesh :=
  ⟨h.neoc, h.eoc, h.coe, h.voe, h.eov, h.cov, h.neoe, h.eoe⟩

theorem mesh_congr {m m' : Mem R} (hi : m'.int = m.int)
    (hr : ∀ b, isMeshR b = true → m'.real b = m.real b) : m'.mesh = m.mesh := by
  simp only [Mem.mesh, hi, hr .area_cell rfl, hr .area_triangle rfl, hr .dv_edge rfl,
    hr .dc_edge rfl, hr .edge_sign_on_cell rfl, hr .edge_sign_on_vertex rfl,
    hr .kiteareas_on_vertex rfl, hr .weights_on_edge rfl, hr .edge_mask rfl,
    hr .mesh_scaling_del2 rfl, hr .mesh_scaling_del4 rfl]

/-- The functions computed by one build. Field arguments are single layers. -/
structure Fns (R : Type) where
  /-- kinetic energy on a cell -/
  ke : Mesh R → (vn : Int → R) → Int → R
  /-- divergence on a cell -/
  div : Mesh R → (vn : Int → R) → Int → R
  /-- thickness on an edge -/
  hmean : Mesh R → (h : Int → R) → Int → R
  /-- tracer concentration -/
  ntr : (tr h : Int → R) → Int → R
  /-- relative vorticity -/
  rvort : Mesh R → (vn : Int → R) → Int → R
  /-- relative vorticity over thickness, on a vertex -/
  nrv : Mesh R → (h vn : Int → R) → Int → R
  /-- planetary vorticity over thickness, on a vertex -/
  npv : Mesh R → (h f : Int → R) → Int → R
  /-- vertex to edge average -/
  vedge : Mesh R → (x : Int → R) → Int → R
  /-- thickness tendency (added) -/
  hadv : Mesh R → (v h : Int → R) → Int → R
  /-- vorticity flux (added) -/
  pv : Mesh R → (nrv nf hf vn : Int → R) → Int → R
  /-- kinetic energy gradient (subtracted) -/
  keG : Mesh R → (ke : Int → R) → Int → R
  /-- surface gradient (subtracted) -/
  sshG : Mesh R → R → (h : Int → R) → Int → R
  /-- viscosity (added) -/
  vdiff : Mesh R → R → Int → (div rv : Int → R) → Int → R
  /-- vector Laplacian on an edge -/
  del2 : Mesh R → (div rv : Int → R) → Int → R
  /-- its curl; `u` is the layer, `u0` the first layer of the chunk -/
  del2rv : Mesh R → (u u0 : Int → R) → Int → R
  /-- its divergence -/
  del2div : Mesh R → (u : Int → R) → Int → R
  /-- hyperviscosity (subtracted) -/
  vhyper : Mesh R → R → Int → (d2div d2rv : Int → R) → Int → R
  /-- tracer advection (added) -/
  thadv : Mesh R → (v ntr hf : Int → R) → Int → R
  /-- tracer diffusion (added) -/
  tdiff : Mesh R → R → (ntr hm : Int → R) → Int → R
  /-- tracer Laplacian -/
  tdel2 : Mesh R → (ntr hm : Int → R) → Int → R
  /-- tracer hyperdiffusion (added) -/
  thyper : Mesh R → R → (del2 : Int → R) → Int → R

namespace Fn

variable (M : Mesh R)

/-- `kinetic_aux.hpp:53-66` (first accumulator) -/
def ke (vn : Int → R) (c : Int) : R :=
  foldI (M.neoc c) (lit 0) fun j s =>
    s + lit 1 / M.areaCell c * (M.dv (M.eoc c j) * M.dc (M.eoc c j)) * vn (M.eoc c j) *
      vn (M.eoc c j) * quarter
/-- `kinetic_aux.hpp:53-66` (second accumulator) -/
def div (vn : Int → R) (c : Int) : R :=
  foldI (M.neoc c) (lit 0) fun j s =>
    s + lit 1 / M.areaCell c * M.dv (M.eoc c j) * M.signC c j * vn (M.eoc c j)
/-- `thickness_aux.hpp:39-44` -/
def hmean (h : Int → R) (e : Int) : R := half * (h (M.coe e 0) + h (M.coe e 1))
/-- `tracer_aux.hpp:37-44` -/
def ntr (tr h : Int → R) (c : Int) : R := tr c * (lit 1 / h c)
/-- `vorticity_aux.hpp:92-107` (first accumulator) -/
def rvort (vn : Int → R) (v : Int) : R :=
  foldI 3 (lit 0) fun j s =>
    s + M.dc (M.eov v j) * (lit 1 / M.areaTri v) * M.signV v j * vn (M.eov v j)
/-- `vorticity_aux.hpp:92-107` (second accumulator) -/
def hvert (h : Int → R) (v : Int) : R :=
  foldI 3 (lit 0) fun j s => s + M.kite v j * (lit 1 / M.areaTri v) * h (M.cov v j)
/-- `vorticity_aux.hpp:109-115` -/
def nrv (h vn : Int → R) (v : Int) : R := lit 1 / hvert M h v * rvort M vn v
/-- `vorticity_aux.hpp:109-115` -/
def npv (h f : Int → R) (v : Int) : R := lit 1 / hvert M h v * f v
/-- `vorticity_aux.hpp:124-131` -/
def vedge (x : Int → R) (e : Int) : R := half * (x (M.voe e 0) + x (M.voe e 1))
/-- `thickness_hadv_cell.hpp:55-66` -/
def hadv (v h : Int → R) (c : Int) : R :=
  foldI (M.neoc c) (lit 0) fun j s =>
    s - M.dv (M.eoc c j) * (lit 1 / M.areaCell c) * M.signC c j * h (M.eoc c j) * v (M.eoc c j)
/-- `pv_flux_edge.hpp:62-78` -/
def pv (nrv nf hf vn : Int → R) (e : Int) : R :=
  foldI (M.neoe e) (lit 0) fun j s =>
    s + M.woe e j * hf (M.eoe e j) * vn (M.eoe e j) *
      ((nrv e + nf e + nrv (M.eoe e j) + nf (M.eoe e j)) * half)
/-- `ke_grad_edge.hpp:42-50` -/
def keG (ke : Int → R) (e : Int) : R := (ke (M.coe e 1) - ke (M.coe e 0)) * (lit 1 / M.dc e)
/-- `ssh_grad_edge.hpp:42-49` -/
def sshG (grav : R) (h : Int → R) (e : Int) : R :=
  grav * (h (M.coe e 1) - h (M.coe e 0)) * (lit 1 / M.dc e)
/-- `vel_diff_edge.hpp:68-85` -/
def vdiff (visc : R) (k : Int) (div rv : Int → R) (e : Int) : R :=
  M.mask e k * visc * M.sdel2 e *
    ((div (M.coe e 1) - div (M.coe e 0)) * (lit 1 / M.dc e) -
      (rv (M.voe e 1) - rv (M.voe e 0)) * (lit 1 / M.dv e))
/-- `vel_hyperdiff_edge.hpp:145-163` -/
def del2 (div rv : Int → R) (e : Int) : R :=
  (div (M.coe e 1) - div (M.coe e 0)) * (lit 1 / M.dc e) -
    (rv (M.voe e 1) - rv (M.voe e 0)) * (lit 1 / maxS (M.dv e) (quarter * M.dc e))
/-- `vel_hyperdiff_edge.hpp:171-182` -/
def del2div (u : Int → R) (c : Int) : R :=
  foldI (M.neoc c) (lit 0) fun j s =>
    s + M.dv (M.eoc c j) * (lit 1 / M.areaCell c) * M.signC c j * u (M.eoc c j)
/-- `vel_hyperdiff_edge.hpp:217-236` -/
def vhyper (visc4 : R) (k : Int) (div rv : Int → R) (e : Int) : R :=
  M.mask e k * visc4 * M.sdel4 e *
    ((div (M.coe e 1) - div (M.coe e 0)) * (lit 1 / M.dc e) -
      (rv (M.voe e 1) - rv (M.voe e 0)) * (lit 1 / M.dv e))
/-- `tracer_hadv_cell.hpp:66-84` -/
def thadv (v ntr hf : Int → R) (c : Int) : R :=
  foldI (M.neoc c) (lit 0) fun j s =>
    s - M.dv (M.eoc c j) * (lit 1 / M.areaCell c) * M.signC c j * hf (M.eoc c j) *
      ((ntr (M.coe (M.eoc c j) 0) + ntr (M.coe (M.eoc c j) 1)) * half) * v (M.eoc c j)
/-- `tracer_diff_cell.hpp:67-86` -/
def tdiff (eddy2 : R) (ntr hm : Int → R) (c : Int) : R :=
  foldI (M.neoc c) (lit 0) fun j s =>
    s + eddy2 * (lit 1 / M.areaCell c) * M.dv (M.eoc c j) * M.signC c j * hm (M.eoc c j) *
      M.sdel2 (M.eoc c j) *
      ((ntr (M.coe (M.eoc c j) 1) - ntr (M.coe (M.eoc c j) 0)) * (lit 1 / M.dc (M.eoc c j)))
/-- `tracer_hyperdiff_cell.hpp:100-123` -/
def tdel2 (ntr hm : Int → R) (c : Int) : R :=
  foldI (M.neoc c) (lit 0) fun j s =>
    s + M.dv (M.eoc c j) * (lit 1 / M.areaCell c) * M.signC c j * hm (M.eoc c j) *
      ((ntr (M.coe (M.eoc c j) 1) - ntr (M.coe (M.eoc c j) 0)) * (lit 1 / M.dc (M.eoc c j)))
/-- `tracer_hyperdiff_cell.hpp:136-155` -/
def thyper (eddy4 : R) (del2 : Int → R) (c : Int) : R :=
  foldI (M.neoc c) (lit 0) fun j s =>
    s - eddy4 * (lit 1 / M.areaCell c) * M.dv (M.eoc c j) * M.signC c j * M.sdel4 (M.eoc c j) *
      ((del2 (M.coe (M.eoc c j) 1) - del2 (M.coe (M.eoc c j) 0)) * (lit 1 / M.dc (M.eoc c j)))

end Fn

/-- The functions of the default build. -/
def scalarF : Fns R where
  ke := Fn.ke
  div := Fn.div
  hmean := Fn.hmean
  ntr := Fn.ntr
  rvort := Fn.rvort
  nrv := Fn.nrv
  npv := Fn.npv
  vedge := Fn.vedge
  hadv := Fn.hadv
  pv := Fn.pv
  keG := Fn.keG
  sshG := Fn.sshG
  vdiff := Fn.vdiff
  del2 := Fn.del2
  del2rv := fun M u _ v => Fn.rvort M u v
  del2div := Fn.del2div
  vhyper := Fn.vhyper
  thadv := Fn.thadv
  tdiff := Fn.tdiff
  tdel2 := Fn.tdel2
  thyper := Fn.thyper

/-- Equality on valid rows. -/
def EqOn (n : Int) (x y : Int → R) : Prop := ∀ i, 0 ≤ i → i < n → x i = y i

theorem EqOn.refl (n : Int) (x : Int → R) : EqOn n x x := fun _ _ _ => rfl
theorem EqOn.symm {n : Int} {x y : Int → R} (h : EqOn n x y) : EqOn n y x :=
  fun i h0 h1 => (h i h0 h1).symm
theorem EqOn.trans {n : Int} {x y z : Int → R} (h : EqOn n x y) (h' : EqOn n y z) : EqOn n x z :=
  fun i h0 h1 => (h i h0 h1).trans (h' i h0 h1)

/-- The functions of a build look only at valid rows of their arguments. -/
structure Fns.Local (F : Fns R) : Prop where
  ke : ∀ {d M x y}, MeshOK d M → EqOn d.nedges x y → EqOn d.ncells (F.ke M x) (F.ke M y)
  div : ∀ {d M x y}, MeshOK d M → EqOn d.nedges x y → EqOn d.ncells (F.div M x) (F.div M y)
  hmean : ∀ {d M x y}, MeshOK d M → EqOn d.ncells x y → EqOn d.nedges (F.hmean M x) (F.hmean M y)
  ntr : ∀ {d : Dims} {x y x' y'}, EqOn d.ncells x y → EqOn d.ncells x' y' →
    EqOn d.ncells (F.ntr x x') (F.ntr y y')
  rvort : ∀ {d M x y}, MeshOK d M → EqOn d.nedges x y →
    EqOn d.nvertices (F.rvort M x) (F.rvort M y)
  nrv : ∀ {d M x y x' y'}, MeshOK d M → EqOn d.ncells x y → EqOn d.nedges x' y' →
    EqOn d.nvertices (F.nrv M x x') (F.nrv M y y')
  npv : ∀ {d M x y x' y'}, MeshOK d M → EqOn d.ncells x y → EqOn d.nvertices x' y' →
    EqOn d.nvertices (F.npv M x x') (F.npv M y y')
  vedge : ∀ {d M x y}, MeshOK d M → EqOn d.nvertices x y →
    EqOn d.nedges (F.vedge M x) (F.vedge M y)
  hadv : ∀ {d M x y x' y'}, MeshOK d M → EqOn d.nedges x y → EqOn d.nedges x' y' →
    EqOn d.ncells (F.hadv M x x') (F.hadv M y y')
  pv : ∀ {d M x1 y1 x2 y2 x3 y3 x4 y4}, MeshOK d M → EqOn d.nedges x1 y1 → EqOn d.nedges x2 y2 →
    EqOn d.nedges x3 y3 → EqOn d.nedges x4 y4 →
    EqOn d.nedges (F.pv M x1 x2 x3 x4) (F.pv M y1 y2 y3 y4)
  keG : ∀ {d M x y}, MeshOK d M → EqOn d.ncells x y → EqOn d.nedges (F.keG M x) (F.keG M y)
  sshG : ∀ {d M g x y}, MeshOK d M → EqOn d.ncells x y →
    EqOn d.nedges (F.sshG M g x) (F.sshG M g y)
  vdiff : ∀ {d M g k x y x' y'}, MeshOK d M → EqOn d.ncells x y → EqOn d.nvertices x' y' →
    EqOn d.nedges (F.vdiff M g k x x') (F.vdiff M g k y y')
  del2 : ∀ {d M x y x' y'}, MeshOK d M → EqOn d.ncells x y → EqOn d.nvertices x' y' →
    EqOn d.nedges (F.del2 M x x') (F.del2 M y y')
  del2rv : ∀ {d M x y x' y'}, MeshOK d M → EqOn d.nedges x y → EqOn d.nedges x' y' →
    EqOn d.nvertices (F.del2rv M x x') (F.del2rv M y y')
  del2div : ∀ {d M x y}, MeshOK d M → EqOn d.nedges x y →
    EqOn d.ncells (F.del2div M x) (F.del2div M y)
  vhyper : ∀ {d M g k x y x' y'}, MeshOK d M → EqOn d.ncells x y → EqOn d.nvertices x' y' →
    EqOn d.nedges (F.vhyper M g k x x') (F.vhyper M g k y y')
  thadv : ∀ {d M x1 y1 x2 y2 x3 y3}, MeshOK d M → EqOn d.nedges x1 y1 → EqOn d.ncells x2 y2 →
    EqOn d.nedges x3 y3 → EqOn d.ncells (F.thadv M x1 x2 x3) (F.thadv M y1 y2 y3)
  tdiff : ∀ {d M g x y x' y'}, MeshOK d M → EqOn d.ncells x y → EqOn d.nedges x' y' →
    EqOn d.ncells (F.tdiff M g x x') (F.tdiff M g y y')
  tdel2 : ∀ {d M x y x' y'}, MeshOK d M → EqOn d.ncells x y → EqOn d.nedges x' y' →
    EqOn d.ncells (F.tdel2 M x x') (F.tdel2 M y y')
  thyper : ∀ {d M g x y}, MeshOK d M → EqOn d.ncells x y →
    EqOn d.ncells (F.thyper M g x) (F.thyper M g y)

section

variable {d : Dims} {M : Mesh R} (hM : MeshOK d M)
include hM

theorem eoc_eq {x y : Int → R} (h : EqOn d.nedges x y) {c j : Int} (h0 : 0 ≤ c) (h1 : c < d.ncells)
    (h2 : 0 ≤ j) (h3 : j < M.neoc c) : x (M.eoc c j) = y (M.eoc c j) :=
  h _ (hM.eoc c h0 h1 j h2 h3).1 (hM.eoc c h0 h1 j h2 h3).2
theorem coe_eq {x y : Int → R} (h : EqOn d.ncells x y) {e s : Int} (h0 : 0 ≤ e) (h1 : e < d.nedges)
    (h2 : 0 ≤ s) (h3 : s < 2) : x (M.coe e s) = y (M.coe e s) :=
  h _ (hM.coe e h0 h1 s h2 h3).1 (hM.coe e h0 h1 s h2 h3).2
theorem voe_eq {x y : Int → R} (h : EqOn d.nvertices x y) {e s : Int} (h0 : 0 ≤ e)
    (h1 : e < d.nedges) (h2 : 0 ≤ s) (h3 : s < 2) : x (M.voe e s) = y (M.voe e s) :=
  h _ (hM.voe e h0 h1 s h2 h3).1 (hM.voe e h0 h1 s h2 h3).2
theorem eov_eq {x y : Int → R} (h : EqOn d.nedges x y) {v s : Int} (h0 : 0 ≤ v)
    (h1 : v < d.nvertices) (h2 : 0 ≤ s) (h3 : s < 3) : x (M.eov v s) = y (M.eov v s) :=
  h _ (hM.eov v h0 h1 s h2 h3).1 (hM.eov v h0 h1 s h2 h3).2
theorem cov_eq {x y : Int → R} (h : EqOn d.ncells x y) {v s : Int} (h0 : 0 ≤ v)
    (h1 : v < d.nvertices) (h2 : 0 ≤ s) (h3 : s < 3) : x (M.cov v s) = y (M.cov v s) :=
  h _ (hM.cov v h0 h1 s h2 h3).1 (hM.cov v h0 h1 s h2 h3).2
theorem eoe_eq {x y : Int → R} (h : EqOn d.nedges x y) {e j : Int} (h0 : 0 ≤ e) (h1 : e < d.nedges)
    (h2 : 0 ≤ j) (h3 : j < M.neoe e) : x (M.eoe e j) = y (M.eoe e j) :=
  h _ (hM.eoe e h0 h1 j h2 h3).1 (hM.eoe e h0 h1 j h2 h3).2

end

theorem hvert_local {d : Dims} {M : Mesh R} {x y : Int → R} (hM : MeshOK d M)
    (h : EqOn d.ncells x y) : EqOn d.nvertices (Fn.hvert M x) (Fn.hvert M y) := by
  intro v h0 h1
  exact foldI_congr _ _ _ _ fun j h2 h3 s => by rw [cov_eq hM h h0 h1 h2 h3]

theorem rvort_local {d : Dims} {M : Mesh R} {x y : Int → R} (hM : MeshOK d M)
    (h : EqOn d.nedges x y) : EqOn d.nvertices (Fn.rvort M x) (Fn.rvort M y) := by
  intro v h0 h1
  exact foldI_congr _ _ _ _ fun j h2 h3 s => by rw [eov_eq hM h h0 h1 h2 h3]

theorem scalarF_local : (scalarF : Fns R).Local where
  ke hM h c h0 h1 := foldI_congr _ _ _ _ fun j h2 h3 s => by rw [eoc_eq hM h h0 h1 h2 h3]
  div hM h c h0 h1 := foldI_congr _ _ _ _ fun j h2 h3 s => by rw [eoc_eq hM h h0 h1 h2 h3]
  hmean hM h e h0 h1 := by
    simp only [scalarF, Fn.hmean]
    rw [coe_eq hM h h0 h1 (s := 0) (by omega) (by omega),
      coe_eq hM h h0 h1 (s := 1) (by omega) (by omega)]
  ntr h h' c h0 h1 := by simp only [scalarF, Fn.ntr]; rw [h c h0 h1, h' c h0 h1]
  rvort := rvort_local
  nrv hM h h' v h0 h1 := by
    simp only [scalarF, Fn.nrv]; rw [hvert_local hM h v h0 h1, rvort_local hM h' v h0 h1]
  npv hM h h' v h0 h1 := by
    simp only [scalarF, Fn.npv]; rw [hvert_local hM h v h0 h1, h' v h0 h1]
  vedge hM h e h0 h1 := by
    simp only [scalarF, Fn.vedge]
    rw [voe_eq hM h h0 h1 (s := 0) (by omega) (by omega),
      voe_eq hM h h0 h1 (s := 1) (by omega) (by omega)]
  hadv hM h h' c h0 h1 := foldI_congr _ _ _ _ fun j h2 h3 s => by
    rw [eoc_eq hM h h0 h1 h2 h3, eoc_eq hM h' h0 h1 h2 h3]
  pv hM g1 g2 g3 g4 e h0 h1 := foldI_congr _ _ _ _ fun j h2 h3 s => by
    rw [g1 e h0 h1, g2 e h0 h1, eoe_eq hM g1 h0 h1 h2 h3, eoe_eq hM g2 h0 h1 h2 h3,
      eoe_eq hM g3 h0 h1 h2 h3, eoe_eq hM g4 h0 h1 h2 h3]
  keG hM h e h0 h1 := by
    simp only [scalarF, Fn.keG]
    rw [coe_eq hM h h0 h1 (s := 0) (by omega) (by omega),
      coe_eq hM h h0 h1 (s := 1) (by omega) (by omega)]
  sshG hM h e h0 h1 := by
    simp only [scalarF, Fn.sshG]
    rw [coe_eq hM h h0 h1 (s := 0) (by omega) (by omega),
      coe_eq hM h h0 h1 (s := 1) (by omega) (by omega)]
  vdiff hM h h' e h0 h1 := by
    simp only [scalarF, Fn.vdiff]
    rw [coe_eq hM h h0 h1 (s := 0) (by omega) (by omega),
      coe_eq hM h h0 h1 (s := 1) (by omega) (by omega),
      voe_eq hM h' h0 h1 (s := 0) (by omega) (by omega),
      voe_eq hM h' h0 h1 (s := 1) (by omega) (by omega)]
  del2 hM h h' e h0 h1 := by
    simp only [scalarF, Fn.del2]
    rw [coe_eq hM h h0 h1 (s := 0) (by omega) (by omega),
      coe_eq hM h h0 h1 (s := 1) (by omega) (by omega),
      voe_eq hM h' h0 h1 (s := 0) (by omega) (by omega),
      voe_eq hM h' h0 h1 (s := 1) (by omega) (by omega)]
  del2rv hM h _ := rvort_local hM h
  del2div hM h c h0 h1 := foldI_congr _ _ _ _ fun j h2 h3 s => by rw [eoc_eq hM h h0 h1 h2 h3]
  vhyper hM h h' e h0 h1 := by
    simp only [scalarF, Fn.vhyper]
    rw [coe_eq hM h h0 h1 (s := 0) (by omega) (by omega),
      coe_eq hM h h0 h1 (s := 1) (by omega) (by omega),
      voe_eq hM h' h0 h1 (s := 0) (by omega) (by omega),
      voe_eq hM h' h0 h1 (s := 1) (by omega) (by omega)]
  thadv hM g1 g2 g3 c h0 h1 := foldI_congr _ _ _ _ fun j h2 h3 s => by
    have he := hM.eoc c h0 h1 j h2 h3
    rw [eoc_eq hM g1 h0 h1 h2 h3, eoc_eq hM g3 h0 h1 h2 h3,
      coe_eq hM g2 he.1 he.2 (s := 0) (by omega) (by omega),
      coe_eq hM g2 he.1 he.2 (s := 1) (by omega) (by omega)]
  tdiff hM g2 g3 c h0 h1 := foldI_congr _ _ _ _ fun j h2 h3 s => by
    have he := hM.eoc c h0 h1 j h2 h3
    rw [eoc_eq hM g3 h0 h1 h2 h3,
      coe_eq hM g2 he.1 he.2 (s := 0) (by omega) (by omega),
      coe_eq hM g2 he.1 he.2 (s := 1) (by omega) (by omega)]
  tdel2 hM g2 g3 c h0 h1 := foldI_congr _ _ _ _ fun j h2 h3 s => by
    have he := hM.eoc c h0 h1 j h2 h3
    rw [eoc_eq hM g3 h0 h1 h2 h3,
      coe_eq hM g2 he.1 he.2 (s := 0) (by omega) (by omega),
      coe_eq hM g2 he.1 he.2 (s := 1) (by omega) (by omega)]
  thyper hM g2 c h0 h1 := foldI_congr _ _ _ _ fun j h2 h3 s => by
    have he := hM.eoc c h0 h1 j h2 h3
    rw [coe_eq hM g2 he.1 he.2 (s := 0) (by omega) (by omega),
      coe_eq hM g2 he.1 he.2 (s := 1) (by omega) (by omega)]

end Refine
end Omega
