import Verif.Refine.Guarded
import Verif.Refine.SimdOps

/-!
# Related systems

Two functional systems, possibly over different arithmetics and with the rows of one renamed, compute
related tendencies and take related steps.  Used with the identity renaming to compare arithmetics and
with equality of values to move the state around the mesh.
-/

set_option linter.unusedVariables false
set_option linter.unusedSectionVars false

namespace Omega
namespace Refine

open Model

variable {R R' : Type} [Scalar R] [Scalar R']

/-- A relation between two arithmetics preserved by the four operations, by division when the
divisor satisfies `NZ`. -/
structure ScRel (ρ : R → R' → Prop) (NZ : R' → Prop) : Prop where
  nz : ∀ n : Int, n ≠ 0 → NZ (lit n)
  lit : ∀ n : Int, ρ (lit n) (lit n)
  add : ∀ {x x' y y'}, ρ x x' → ρ y y' → ρ (x + y) (x' + y')
  sub : ∀ {x x' y y'}, ρ x x' → ρ y y' → ρ (x - y) (x' - y')
  mul : ∀ {x x' y y'}, ρ x x' → ρ y y' → ρ (x * y) (x' * y')
  div : ∀ {x x' y y'}, ρ x x' → ρ y y' → NZ y' → ρ (x / y) (x' / y')

/-- A renaming of cells, edges and vertices. -/
structure Ren where
  c : Int → Int
  e : Int → Int
  v : Int → Int

/-- Rows of one field are related to the renamed rows of the other. -/
def FRel (ρ : R → R' → Prop) (σ : Int → Int) (n : Int) (x : Int → R) (y : Int → R') : Prop :=
  ∀ i, 0 ≤ i → i < n → ρ (x (σ i)) (y i)

/-- The mesh `M` renamed is the mesh `M'`. -/
structure MeshRel (ρ : R → R' → Prop) (NZ : R' → Prop) (σ : Ren) (d : Dims) (M : Mesh R) (M' : Mesh R') : Prop where
  neoc : ∀ c, 0 ≤ c → c < d.ncells → M.neoc (σ.c c) = M'.neoc c
  eoc : ∀ c, 0 ≤ c → c < d.ncells → ∀ j, 0 ≤ j → j < M'.neoc c → M.eoc (σ.c c) j = σ.e (M'.eoc c j)
  coe : ∀ e, 0 ≤ e → e < d.nedges → ∀ s, 0 ≤ s → s < 2 → M.coe (σ.e e) s = σ.c (M'.coe e s)
  voe : ∀ e, 0 ≤ e → e < d.nedges → ∀ s, 0 ≤ s → s < 2 → M.voe (σ.e e) s = σ.v (M'.voe e s)
  eov : ∀ v, 0 ≤ v → v < d.nvertices → ∀ s, 0 ≤ s → s < 3 → M.eov (σ.v v) s = σ.e (M'.eov v s)
  cov : ∀ v, 0 ≤ v → v < d.nvertices → ∀ s, 0 ≤ s → s < 3 → M.cov (σ.v v) s = σ.c (M'.cov v s)
  neoe : ∀ e, 0 ≤ e → e < d.nedges → M.neoe (σ.e e) = M'.neoe e
  eoe : ∀ e, 0 ≤ e → e < d.nedges → ∀ j, 0 ≤ j → j < M'.neoe e → M.eoe (σ.e e) j = σ.e (M'.eoe e j)
  areaCell : FRel ρ σ.c d.ncells M.areaCell M'.areaCell
  areaTri : FRel ρ σ.v d.nvertices M.areaTri M'.areaTri
  dv : FRel ρ σ.e d.nedges M.dv M'.dv
  dc : FRel ρ σ.e d.nedges M.dc M'.dc
  dvFloor : FRel ρ σ.e d.nedges (fun e => maxS (M.dv e) (quarter * M.dc e))
    (fun e => maxS (M'.dv e) (quarter * M'.dc e))
  signC : ∀ c, 0 ≤ c → c < d.ncells → ∀ j, 0 ≤ j → j < M'.neoc c → ρ (M.signC (σ.c c) j) (M'.signC c j)
  signV : ∀ v, 0 ≤ v → v < d.nvertices → ∀ s, 0 ≤ s → s < 3 → ρ (M.signV (σ.v v) s) (M'.signV v s)
  kite : ∀ v, 0 ≤ v → v < d.nvertices → ∀ s, 0 ≤ s → s < 3 → ρ (M.kite (σ.v v) s) (M'.kite v s)
  woe : ∀ e, 0 ≤ e → e < d.nedges → ∀ j, 0 ≤ j → j < M'.neoe e → ρ (M.woe (σ.e e) j) (M'.woe e j)
  mask : ∀ e, 0 ≤ e → e < d.nedges → ∀ k, 0 ≤ k → k < d.nlayers → ρ (M.mask (σ.e e) k) (M'.mask e k)
  sdel2 : FRel ρ σ.e d.nedges M.sdel2 M'.sdel2
  sdel4 : FRel ρ σ.e d.nedges M.sdel4 M'.sdel4
  nzC : ∀ c, 0 ≤ c → c < d.ncells → NZ (M'.areaCell c)
  nzT : ∀ v, 0 ≤ v → v < d.nvertices → NZ (M'.areaTri v)
  nzDv : ∀ e, 0 ≤ e → e < d.nedges → NZ (M'.dv e)
  nzDc : ∀ e, 0 ≤ e → e < d.nedges → NZ (M'.dc e)
  nzF : ∀ e, 0 ≤ e → e < d.nedges → NZ (maxS (M'.dv e) (quarter * M'.dc e))

theorem foldI_rel {σ τ : Type} {P : σ → τ → Prop} {n : Int} {s : σ} {t : τ} {f : Int → σ → σ}
    {g : Int → τ → τ} (h0 : P s t) (h : ∀ j, 0 ≤ j → j < n → ∀ a b, P a b → P (f j a) (g j b)) :
    P (foldI n s f) (foldI n t g) := by
  rcases le_or_gt n 0 with hn | hn
  · have : n.toNat = 0 := by omega
    simpa [foldI, this, foldFrom] using h0
  · obtain ⟨k, rfl⟩ : ∃ k : Nat, n = k := ⟨n.toNat, by omega⟩
    clear hn
    induction k with
    | zero => exact h0
    | succ k ih =>
      push_cast
      rw [foldI_nat_succ, foldI_nat_succ]
      exact h k (by omega) (by push_cast; omega) _ _ (ih fun j h0 h1 => h j h0 (by push_cast; omega))

section

variable {ρ : R → R' → Prop} {NZ : R' → Prop} {σ : Ren} {d : Dims} {M : Mesh R} {M' : Mesh R'}

theorem ScRel.half (h : ScRel ρ NZ) : ρ half half := h.div (h.lit 1) (h.lit 2) (h.nz 2 (by decide))
theorem ScRel.quarter (h : ScRel ρ NZ) : ρ quarter quarter := h.div (h.lit 1) (h.lit 4) (h.nz 4 (by decide))

variable (hρ : ScRel ρ NZ) (hM : MeshRel ρ NZ σ d M M') (ok : MeshOK d M')
include hρ hM ok

/-- fields on cells, edges, vertices -/
local notation "OnC" => FRel ρ σ.c d.ncells
local notation "OnE" => FRel ρ σ.e d.nedges
local notation "OnV" => FRel ρ σ.v d.nvertices

theorem ke_rel {x : Int → R} {y : Int → R'} (h : OnE x y) : OnC (Fn.ke M x) (Fn.ke M' y) := by
  intro c h0 h1
  unfold Fn.ke
  rw [hM.neoc c h0 h1]
  refine foldI_rel (hρ.lit 0) fun j j0 j1 a b hab => ?_
  rw [hM.eoc c h0 h1 j j0 j1]
  have he := ok.eoc c h0 h1 j j0 j1
  exact hρ.add hab (hρ.mul (hρ.mul (hρ.mul (hρ.mul (hρ.div (hρ.lit 1) (hM.areaCell c h0 h1)
    (hM.nzC c h0 h1))
    (hρ.mul (hM.dv _ he.1 he.2) (hM.dc _ he.1 he.2))) (h _ he.1 he.2)) (h _ he.1 he.2)) hρ.quarter)

theorem div_rel {x : Int → R} {y : Int → R'} (h : OnE x y) : OnC (Fn.div M x) (Fn.div M' y) := by
  intro c h0 h1
  unfold Fn.div
  rw [hM.neoc c h0 h1]
  refine foldI_rel (hρ.lit 0) fun j j0 j1 a b hab => ?_
  rw [hM.eoc c h0 h1 j j0 j1]
  have he := ok.eoc c h0 h1 j j0 j1
  exact hρ.add hab (hρ.mul (hρ.mul (hρ.mul (hρ.div (hρ.lit 1) (hM.areaCell c h0 h1)
    (hM.nzC c h0 h1))
    (hM.dv _ he.1 he.2)) (hM.signC c h0 h1 j j0 j1)) (h _ he.1 he.2))

theorem coe_rel {x : Int → R} {y : Int → R'} (h : OnC x y) {e s : Int} (h0 : 0 ≤ e)
    (h1 : e < d.nedges) (s0 : 0 ≤ s) (s1 : s < 2) : ρ (x (M.coe (σ.e e) s)) (y (M'.coe e s)) := by
  rw [hM.coe e h0 h1 s s0 s1]
  exact h _ (ok.coe e h0 h1 s s0 s1).1 (ok.coe e h0 h1 s s0 s1).2

theorem voe_rel {x : Int → R} {y : Int → R'} (h : OnV x y) {e s : Int} (h0 : 0 ≤ e)
    (h1 : e < d.nedges) (s0 : 0 ≤ s) (s1 : s < 2) : ρ (x (M.voe (σ.e e) s)) (y (M'.voe e s)) := by
  rw [hM.voe e h0 h1 s s0 s1]
  exact h _ (ok.voe e h0 h1 s s0 s1).1 (ok.voe e h0 h1 s s0 s1).2

theorem eov_rel {x : Int → R} {y : Int → R'} (h : OnE x y) {v s : Int} (h0 : 0 ≤ v)
    (h1 : v < d.nvertices) (s0 : 0 ≤ s) (s1 : s < 3) : ρ (x (M.eov (σ.v v) s)) (y (M'.eov v s)) := by
  rw [hM.eov v h0 h1 s s0 s1]
  exact h _ (ok.eov v h0 h1 s s0 s1).1 (ok.eov v h0 h1 s s0 s1).2

theorem cov_rel {x : Int → R} {y : Int → R'} (h : OnC x y) {v s : Int} (h0 : 0 ≤ v)
    (h1 : v < d.nvertices) (s0 : 0 ≤ s) (s1 : s < 3) : ρ (x (M.cov (σ.v v) s)) (y (M'.cov v s)) := by
  rw [hM.cov v h0 h1 s s0 s1]
  exact h _ (ok.cov v h0 h1 s s0 s1).1 (ok.cov v h0 h1 s s0 s1).2

theorem hmean_rel {x : Int → R} {y : Int → R'} (h : OnC x y) :
    OnE (Fn.hmean M x) (Fn.hmean M' y) := fun e h0 h1 =>
  hρ.mul hρ.half (hρ.add (coe_rel hρ hM ok h h0 h1 (by omega) (by omega))
    (coe_rel hρ hM ok h h0 h1 (by omega) (by omega)))

theorem ntr_rel {x x' : Int → R} {y y' : Int → R'} (h : OnC x y) (h' : OnC x' y')
    (nz : ∀ c, 0 ≤ c → c < d.ncells → NZ (y' c)) : OnC (Fn.ntr x x') (Fn.ntr y y') := fun c h0 h1 =>
  hρ.mul (h c h0 h1) (hρ.div (hρ.lit 1) (h' c h0 h1) (nz c h0 h1))

theorem rvort_rel {x : Int → R} {y : Int → R'} (h : OnE x y) :
    OnV (Fn.rvort M x) (Fn.rvort M' y) := by
  intro v h0 h1
  refine foldI_rel (hρ.lit 0) fun j j0 j1 a b hab => ?_
  exact hρ.add hab (hρ.mul (hρ.mul (hρ.mul (eov_rel hρ hM ok hM.dc h0 h1 j0 j1)
    (hρ.div (hρ.lit 1) (hM.areaTri v h0 h1)
    (hM.nzT v h0 h1))) (hM.signV v h0 h1 j j0 j1))
    (eov_rel hρ hM ok h h0 h1 j0 j1))

theorem hvert_rel {x : Int → R} {y : Int → R'} (h : OnC x y) :
    OnV (Fn.hvert M x) (Fn.hvert M' y) := by
  intro v h0 h1
  refine foldI_rel (hρ.lit 0) fun j j0 j1 a b hab => ?_
  exact hρ.add hab (hρ.mul (hρ.mul (hM.kite v h0 h1 j j0 j1)
    (hρ.div (hρ.lit 1) (hM.areaTri v h0 h1)
    (hM.nzT v h0 h1))) (cov_rel hρ hM ok h h0 h1 j0 j1))

theorem nrv_rel {x x' : Int → R} {y y' : Int → R'} (h : OnC x y) (h' : OnE x' y')
    (nz : ∀ v, 0 ≤ v → v < d.nvertices → NZ (Fn.hvert M' y v)) :
    OnV (Fn.nrv M x x') (Fn.nrv M' y y') := fun v h0 h1 =>
  hρ.mul (hρ.div (hρ.lit 1) (hvert_rel hρ hM ok h v h0 h1) (nz v h0 h1)) (rvort_rel hρ hM ok h' v h0 h1)

theorem npv_rel {x x' : Int → R} {y y' : Int → R'} (h : OnC x y) (h' : OnV x' y')
    (nz : ∀ v, 0 ≤ v → v < d.nvertices → NZ (Fn.hvert M' y v)) :
    OnV (Fn.npv M x x') (Fn.npv M' y y') := fun v h0 h1 =>
  hρ.mul (hρ.div (hρ.lit 1) (hvert_rel hρ hM ok h v h0 h1) (nz v h0 h1)) (h' v h0 h1)

theorem vedge_rel {x : Int → R} {y : Int → R'} (h : OnV x y) :
    OnE (Fn.vedge M x) (Fn.vedge M' y) := fun e h0 h1 =>
  hρ.mul hρ.half (hρ.add (voe_rel hρ hM ok h h0 h1 (by omega) (by omega))
    (voe_rel hρ hM ok h h0 h1 (by omega) (by omega)))

theorem hadv_rel {x x' : Int → R} {y y' : Int → R'} (h : OnE x y) (h' : OnE x' y') :
    OnC (Fn.hadv M x x') (Fn.hadv M' y y') := by
  intro c h0 h1
  unfold Fn.hadv
  rw [hM.neoc c h0 h1]
  refine foldI_rel (hρ.lit 0) fun j j0 j1 a b hab => ?_
  rw [hM.eoc c h0 h1 j j0 j1]
  have he := ok.eoc c h0 h1 j j0 j1
  exact hρ.sub hab (hρ.mul (hρ.mul (hρ.mul (hρ.mul (hM.dv _ he.1 he.2) (hρ.div (hρ.lit 1) (hM.areaCell c h0 h1)
    (hM.nzC c h0 h1))) (hM.signC c h0 h1 j j0 j1)) (h' _ he.1 he.2)) (h _ he.1 he.2))

theorem pv_rel {x1 x2 x3 x4 : Int → R} {y1 y2 y3 y4 : Int → R'} (g1 : OnE x1 y1) (g2 : OnE x2 y2)
    (g3 : OnE x3 y3) (g4 : OnE x4 y4) : OnE (Fn.pv M x1 x2 x3 x4) (Fn.pv M' y1 y2 y3 y4) := by
  intro e h0 h1
  unfold Fn.pv
  rw [hM.neoe e h0 h1]
  refine foldI_rel (hρ.lit 0) fun j j0 j1 a b hab => ?_
  rw [hM.eoe e h0 h1 j j0 j1]
  have he := ok.eoe e h0 h1 j j0 j1
  exact hρ.add hab (hρ.mul (hρ.mul (hρ.mul (hM.woe e h0 h1 j j0 j1) (g3 _ he.1 he.2))
    (g4 _ he.1 he.2)) (hρ.mul (hρ.add (hρ.add (hρ.add (g1 e h0 h1) (g2 e h0 h1)) (g1 _ he.1 he.2))
      (g2 _ he.1 he.2)) hρ.half))

theorem keG_rel {x : Int → R} {y : Int → R'} (h : OnC x y) :
    OnE (Fn.keG M x) (Fn.keG M' y) := fun e h0 h1 =>
  hρ.mul (hρ.sub (coe_rel hρ hM ok h h0 h1 (by omega) (by omega))
    (coe_rel hρ hM ok h h0 h1 (by omega) (by omega))) (hρ.div (hρ.lit 1) (hM.dc e h0 h1)
    (hM.nzDc e h0 h1))

theorem sshG_rel {g : R} {g' : R'} (hg : ρ g g') {x : Int → R} {y : Int → R'} (h : OnC x y) :
    OnE (Fn.sshG M g x) (Fn.sshG M' g' y) := fun e h0 h1 =>
  hρ.mul (hρ.mul hg (hρ.sub (coe_rel hρ hM ok h h0 h1 (by omega) (by omega))
    (coe_rel hρ hM ok h h0 h1 (by omega) (by omega)))) (hρ.div (hρ.lit 1) (hM.dc e h0 h1)
    (hM.nzDc e h0 h1))

theorem vdiff_rel {g : R} {g' : R'} (hg : ρ g g') {k : Int} (k0 : 0 ≤ k) (k1 : k < d.nlayers)
    {x x' : Int → R} {y y' : Int → R'} (h : OnC x y) (h' : OnV x' y') :
    OnE (Fn.vdiff M g k x x') (Fn.vdiff M' g' k y y') := fun e h0 h1 =>
  hρ.mul (hρ.mul (hρ.mul (hM.mask e h0 h1 k k0 k1) hg) (hM.sdel2 e h0 h1))
    (hρ.sub (hρ.mul (hρ.sub (coe_rel hρ hM ok h h0 h1 (by omega) (by omega))
      (coe_rel hρ hM ok h h0 h1 (by omega) (by omega))) (hρ.div (hρ.lit 1) (hM.dc e h0 h1)
    (hM.nzDc e h0 h1)))
      (hρ.mul (hρ.sub (voe_rel hρ hM ok h' h0 h1 (by omega) (by omega))
      (voe_rel hρ hM ok h' h0 h1 (by omega) (by omega))) (hρ.div (hρ.lit 1) (hM.dv e h0 h1)
    (hM.nzDv e h0 h1))))

theorem vhyper_rel {g : R} {g' : R'} (hg : ρ g g') {k : Int} (k0 : 0 ≤ k) (k1 : k < d.nlayers)
    {x x' : Int → R} {y y' : Int → R'} (h : OnC x y) (h' : OnV x' y') :
    OnE (Fn.vhyper M g k x x') (Fn.vhyper M' g' k y y') := fun e h0 h1 =>
  hρ.mul (hρ.mul (hρ.mul (hM.mask e h0 h1 k k0 k1) hg) (hM.sdel4 e h0 h1))
    (hρ.sub (hρ.mul (hρ.sub (coe_rel hρ hM ok h h0 h1 (by omega) (by omega))
      (coe_rel hρ hM ok h h0 h1 (by omega) (by omega))) (hρ.div (hρ.lit 1) (hM.dc e h0 h1)
    (hM.nzDc e h0 h1)))
      (hρ.mul (hρ.sub (voe_rel hρ hM ok h' h0 h1 (by omega) (by omega))
      (voe_rel hρ hM ok h' h0 h1 (by omega) (by omega))) (hρ.div (hρ.lit 1) (hM.dv e h0 h1)
    (hM.nzDv e h0 h1))))

theorem del2_rel {x x' : Int → R} {y y' : Int → R'} (h : OnC x y) (h' : OnV x' y') :
    OnE (Fn.del2 M x x') (Fn.del2 M' y y') := fun e h0 h1 =>
  hρ.sub (hρ.mul (hρ.sub (coe_rel hρ hM ok h h0 h1 (by omega) (by omega))
      (coe_rel hρ hM ok h h0 h1 (by omega) (by omega))) (hρ.div (hρ.lit 1) (hM.dc e h0 h1)
    (hM.nzDc e h0 h1)))
      (hρ.mul (hρ.sub (voe_rel hρ hM ok h' h0 h1 (by omega) (by omega))
      (voe_rel hρ hM ok h' h0 h1 (by omega) (by omega))) (hρ.div (hρ.lit 1) (hM.dvFloor e h0 h1)
    (hM.nzF e h0 h1)))

theorem del2div_rel {x : Int → R} {y : Int → R'} (h : OnE x y) :
    OnC (Fn.del2div M x) (Fn.del2div M' y) := by
  intro c h0 h1
  unfold Fn.del2div
  rw [hM.neoc c h0 h1]
  refine foldI_rel (hρ.lit 0) fun j j0 j1 a b hab => ?_
  rw [hM.eoc c h0 h1 j j0 j1]
  have he := ok.eoc c h0 h1 j j0 j1
  exact hρ.add hab (hρ.mul (hρ.mul (hρ.mul (hM.dv _ he.1 he.2) (hρ.div (hρ.lit 1) (hM.areaCell c h0 h1)
    (hM.nzC c h0 h1))) (hM.signC c h0 h1 j j0 j1)) (h _ he.1 he.2))

theorem thadv_rel {x1 x2 x3 : Int → R} {y1 y2 y3 : Int → R'} (g1 : OnE x1 y1) (g2 : OnC x2 y2)
    (g3 : OnE x3 y3) : OnC (Fn.thadv M x1 x2 x3) (Fn.thadv M' y1 y2 y3) := by
  intro c h0 h1
  unfold Fn.thadv
  rw [hM.neoc c h0 h1]
  refine foldI_rel (hρ.lit 0) fun j j0 j1 a b hab => ?_
  rw [hM.eoc c h0 h1 j j0 j1]
  have he := ok.eoc c h0 h1 j j0 j1
  exact hρ.sub hab (hρ.mul (hρ.mul (hρ.mul (hρ.mul (hρ.mul (hM.dv _ he.1 he.2) (hρ.div (hρ.lit 1) (hM.areaCell c h0 h1)
    (hM.nzC c h0 h1))) (hM.signC c h0 h1 j j0 j1)) (g3 _ he.1 he.2))
    (hρ.mul (hρ.add (coe_rel hρ hM ok g2 he.1 he.2 (by omega) (by omega))
      (coe_rel hρ hM ok g2 he.1 he.2 (by omega) (by omega))) hρ.half)) (g1 _ he.1 he.2))

theorem tgrad_rel {x : Int → R} {y : Int → R'} (g2 : OnC x y) {e : Int} (h0 : 0 ≤ e)
    (h1 : e < d.nedges) : ρ ((x (M.coe (σ.e e) 1) - x (M.coe (σ.e e) 0)) * (lit 1 / M.dc (σ.e e)))
      ((y (M'.coe e 1) - y (M'.coe e 0)) * (lit 1 / M'.dc e)) :=
  hρ.mul (hρ.sub (coe_rel hρ hM ok g2 h0 h1 (by omega) (by omega))
      (coe_rel hρ hM ok g2 h0 h1 (by omega) (by omega))) (hρ.div (hρ.lit 1) (hM.dc e h0 h1)
    (hM.nzDc e h0 h1))

theorem tdiff_rel {g : R} {g' : R'} (hg : ρ g g') {x2 x3 : Int → R} {y2 y3 : Int → R'}
    (g2 : OnC x2 y2) (g3 : OnE x3 y3) : OnC (Fn.tdiff M g x2 x3) (Fn.tdiff M' g' y2 y3) := by
  intro c h0 h1
  unfold Fn.tdiff
  rw [hM.neoc c h0 h1]
  refine foldI_rel (hρ.lit 0) fun j j0 j1 a b hab => ?_
  rw [hM.eoc c h0 h1 j j0 j1]
  have he := ok.eoc c h0 h1 j j0 j1
  exact hρ.add hab (hρ.mul (hρ.mul (hρ.mul (hρ.mul (hρ.mul (hρ.mul hg (hρ.div (hρ.lit 1) (hM.areaCell c h0 h1)
    (hM.nzC c h0 h1))) (hM.dv _ he.1 he.2)) (hM.signC c h0 h1 j j0 j1)) (g3 _ he.1 he.2))
    (hM.sdel2 _ he.1 he.2)) (tgrad_rel hρ hM ok g2 he.1 he.2))

theorem tdel2_rel {x2 x3 : Int → R} {y2 y3 : Int → R'}
    (g2 : OnC x2 y2) (g3 : OnE x3 y3) : OnC (Fn.tdel2 M x2 x3) (Fn.tdel2 M' y2 y3) := by
  intro c h0 h1
  unfold Fn.tdel2
  rw [hM.neoc c h0 h1]
  refine foldI_rel (hρ.lit 0) fun j j0 j1 a b hab => ?_
  rw [hM.eoc c h0 h1 j j0 j1]
  have he := ok.eoc c h0 h1 j j0 j1
  exact hρ.add hab (hρ.mul (hρ.mul (hρ.mul (hρ.mul (hM.dv _ he.1 he.2) (hρ.div (hρ.lit 1) (hM.areaCell c h0 h1)
    (hM.nzC c h0 h1))) (hM.signC c h0 h1 j j0 j1)) (g3 _ he.1 he.2))
    (tgrad_rel hρ hM ok g2 he.1 he.2))

theorem thyper_rel {g : R} {g' : R'} (hg : ρ g g') {x2 : Int → R} {y2 : Int → R'}
    (g2 : OnC x2 y2) : OnC (Fn.thyper M g x2) (Fn.thyper M' g' y2) := by
  intro c h0 h1
  unfold Fn.thyper
  rw [hM.neoc c h0 h1]
  refine foldI_rel (hρ.lit 0) fun j j0 j1 a b hab => ?_
  rw [hM.eoc c h0 h1 j j0 j1]
  have he := ok.eoc c h0 h1 j j0 j1
  exact hρ.sub hab (hρ.mul (hρ.mul (hρ.mul (hρ.mul (hρ.mul hg (hρ.div (hρ.lit 1) (hM.areaCell c h0 h1)
    (hM.nzC c h0 h1))) (hM.dv _ he.1 he.2)) (hM.signC c h0 h1 j j0 j1))
    (hM.sdel4 _ he.1 he.2)) (tgrad_rel hρ hM ok g2 he.1 he.2))

/-! the functions of the explicit-SIMD build that differ -/

theorem snrv_rel {x x' : Int → R} {y y' : Int → R'} (h : OnC x y) (h' : OnE x' y')
    (nz : ∀ v, 0 ≤ v → v < d.nvertices → NZ (Fn.hvert M' y v)) :
    OnV (SFn.nrv M x x') (SFn.nrv M' y y') := fun v h0 h1 =>
  hρ.mul (rvort_rel hρ hM ok h' v h0 h1) (hρ.div (hρ.lit 1) (hvert_rel hρ hM ok h v h0 h1) (nz v h0 h1))

theorem spv_rel {x1 x2 x3 x4 : Int → R} {y1 y2 y3 y4 : Int → R'} (g1 : OnE x1 y1) (g2 : OnE x2 y2)
    (g3 : OnE x3 y3) (g4 : OnE x4 y4) : OnE (SFn.pv M x1 x2 x3 x4) (SFn.pv M' y1 y2 y3 y4) := by
  intro e h0 h1
  unfold SFn.pv
  rw [hM.neoe e h0 h1]
  refine foldI_rel (hρ.lit 0) fun j j0 j1 a b hab => ?_
  rw [hM.eoe e h0 h1 j j0 j1]
  have he := ok.eoe e h0 h1 j j0 j1
  exact hρ.add hab (hρ.mul (hρ.mul (hρ.mul (hM.woe e h0 h1 j j0 j1) (g3 _ he.1 he.2))
    (g4 _ he.1 he.2)) (hρ.mul hρ.half (hρ.add (hρ.add (hρ.add (g1 e h0 h1) (g2 e h0 h1)) (g1 _ he.1 he.2))
      (g2 _ he.1 he.2))))

theorem svdiff_rel {g : R} {g' : R'} (hg : ρ g g') {k : Int} (k0 : 0 ≤ k) (k1 : k < d.nlayers)
    {x x' : Int → R} {y y' : Int → R'} (h : OnC x y) (h' : OnV x' y') :
    OnE (SFn.vdiff M g k x x') (SFn.vdiff M' g' k y y') := fun e h0 h1 =>
  hρ.mul (hρ.mul (hρ.mul hg (hM.sdel2 e h0 h1)) (hM.mask e h0 h1 k k0 k1))
    (hρ.sub (hρ.mul (hρ.sub (coe_rel hρ hM ok h h0 h1 (by omega) (by omega))
      (coe_rel hρ hM ok h h0 h1 (by omega) (by omega))) (hρ.div (hρ.lit 1) (hM.dc e h0 h1)
    (hM.nzDc e h0 h1)))
      (hρ.mul (hρ.sub (voe_rel hρ hM ok h' h0 h1 (by omega) (by omega))
      (voe_rel hρ hM ok h' h0 h1 (by omega) (by omega))) (hρ.div (hρ.lit 1) (hM.dv e h0 h1)
    (hM.nzDv e h0 h1))))

theorem sthadv_rel {x1 x2 x3 : Int → R} {y1 y2 y3 : Int → R'} (g1 : OnE x1 y1) (g2 : OnC x2 y2)
    (g3 : OnE x3 y3) : OnC (SFn.thadv M x1 x2 x3) (SFn.thadv M' y1 y2 y3) := by
  intro c h0 h1
  unfold SFn.thadv
  rw [hM.neoc c h0 h1]
  refine foldI_rel (hρ.lit 0) fun j j0 j1 a b hab => ?_
  rw [hM.eoc c h0 h1 j j0 j1]
  have he := ok.eoc c h0 h1 j j0 j1
  exact hρ.sub hab (hρ.mul (hρ.mul (hρ.mul (hρ.mul (hρ.mul (hM.dv _ he.1 he.2) (hρ.div (hρ.lit 1) (hM.areaCell c h0 h1)
    (hM.nzC c h0 h1))) (hM.signC c h0 h1 j j0 j1)) (g3 _ he.1 he.2))
    (hρ.mul hρ.half (hρ.add (coe_rel hρ hM ok g2 he.1 he.2 (by omega) (by omega))
      (coe_rel hρ hM ok g2 he.1 he.2 (by omega) (by omega))))) (g1 _ he.1 he.2))

theorem stdiff_rel {g : R} {g' : R'} (hg : ρ g g') {x2 x3 : Int → R} {y2 y3 : Int → R'}
    (g2 : OnC x2 y2) (g3 : OnE x3 y3) : OnC (SFn.tdiff M g x2 x3) (SFn.tdiff M' g' y2 y3) := by
  intro c h0 h1
  unfold SFn.tdiff
  rw [hM.neoc c h0 h1]
  refine foldI_rel (hρ.lit 0) fun j j0 j1 a b hab => ?_
  rw [hM.eoc c h0 h1 j j0 j1]
  have he := ok.eoc c h0 h1 j j0 j1
  exact hρ.add hab (hρ.mul (hρ.mul (hρ.mul (hρ.mul (hρ.mul (hρ.mul hg (hρ.div (hρ.lit 1) (hM.areaCell c h0 h1)
    (hM.nzC c h0 h1))) (hM.dv _ he.1 he.2)) (hM.signC c h0 h1 j j0 j1)) (hM.sdel2 _ he.1 he.2))
    (g3 _ he.1 he.2)) (tgrad_rel hρ hM ok g2 he.1 he.2))

end

/-! ### Systems -/

/-- Fields related row by row after renaming. -/
structure FldRel (ρ : R → R' → Prop) (σ : Ren) (d : Dims) (X : Fld R) (Y : Fld R') : Prop where
  h : ∀ c k, 0 ≤ c → c < d.ncells → 0 ≤ k → k < d.nlayers → ρ (X.h (σ.c c) k) (Y.h c k)
  vn : ∀ e k, 0 ≤ e → e < d.nedges → 0 ≤ k → k < d.nlayers → ρ (X.vn (σ.e e) k) (Y.vn e k)
  tr : ∀ l c k, 0 ≤ l → l < d.ntracers → 0 ≤ c → c < d.ncells → 0 ≤ k → k < d.nlayers →
    ρ (X.tr l (σ.c c) k) (Y.tr l c k)

/-- The renaming keeps rows in range. -/
structure Ren.OK (σ : Ren) (d : Dims) : Prop where
  c : ∀ i, 0 ≤ i → i < d.ncells → 0 ≤ σ.c i ∧ σ.c i < d.ncells
  e : ∀ i, 0 ≤ i → i < d.nedges → 0 ≤ σ.e i ∧ σ.e i < d.nedges

/-- Related systems, both of the default build or both of the explicit-SIMD build. -/
structure SysRel (ρ : R → R' → Prop) (NZ : R' → Prop) (σ : Ren) (d : Dims) (S : Sys R) (S' : Sys R') : Prop where
  sc : ScRel ρ NZ
  ren : σ.OK d
  F : (S.F = scalarF ∧ S'.F = scalarF) ∨
    (S.F = simdF ∧ S'.F = simdF ∧ S'.vl = S.vl ∧ 0 < S.vl)
  mesh : MeshRel ρ NZ σ d S.M S'.M
  ok : MeshOK d S'.M
  f : FRel ρ σ.v d.nvertices S.f S'.f
  grav : ρ S.sw.prm.grav S'.sw.prm.grav
  visc2 : ρ S.sw.prm.visc_del2 S'.sw.prm.visc_del2
  visc4 : ρ S.sw.prm.visc_del4 S'.sw.prm.visc_del4
  eddy2 : ρ S.sw.prm.eddy_diff2 S'.sw.prm.eddy_diff2
  eddy4 : ρ S.sw.prm.eddy_diff4 S'.sw.prm.eddy_diff4
  dis_h : S.sw.prm.disable_h = S'.sw.prm.disable_h
  dis_vn : S.sw.prm.disable_vn = S'.sw.prm.disable_vn
  en_hadv : S.sw.en_hadv = S'.sw.en_hadv
  en_pv : S.sw.en_pv = S'.sw.en_pv
  en_ke : S.sw.en_ke = S'.sw.en_ke
  en_ssh : S.sw.en_ssh = S'.sw.en_ssh
  en_vdiff : S.sw.en_vdiff = S'.sw.en_vdiff
  en_vhyper : S.sw.en_vhyper = S'.sw.en_vhyper
  en_thadv : S.sw.en_thadv = S'.sw.en_thadv
  en_tdiff : S.sw.en_tdiff = S'.sw.en_tdiff
  en_thyper : S.sw.en_thyper = S'.sw.en_thyper
  hookH : ∀ t t' c k v v', ρ t t' → 0 ≤ c → c < d.ncells → 0 ≤ k → k < d.nlayers → ρ v v' →
    ρ (S.H.h t (σ.c c) k v) (S'.H.h t' c k v')
  hookV : ∀ t t' e k v v', ρ t t' → 0 ≤ e → e < d.nedges → 0 ≤ k → k < d.nlayers → ρ v v' →
    ρ (S.H.vn t (σ.e e) k v) (S'.H.vn t' e k v')

/-- The state has divisors satisfying `NZ`: thickness at vertices, and in cells when there are
tracers. -/
def Wet (NZ : R' → Prop) (d : Dims) (M : Mesh R') (Y : Fld R') : Prop :=
  (∀ v k, 0 ≤ v → v < d.nvertices → 0 ≤ k → k < d.nlayers → NZ (Fn.hvert M (Sys.hk Y k) v)) ∧
  (0 < d.ntracers → ∀ c k, 0 ≤ c → c < d.ncells → 0 ≤ k → k < d.nlayers → NZ (Y.h c k))

section

variable {ρ : R → R' → Prop} {NZ : R' → Prop} {σ : Ren} {d : Dims} {S : Sys R} {S' : Sys R'}
  (hS : SysRel ρ NZ σ d S S')
include hS

theorem whenAdd_rel {b b' : Bool} (hb : b = b') {t x : R} {t' x' : R'} (ht : ρ t t')
    (hx : b' = true → ρ x x') : ρ (if b = true then t + x else t) (if b' = true then t' + x' else t') := by
  subst hb
  split_ifs with h
  · exact hS.sc.add ht (hx h)
  · exact ht

theorem whenSub_rel {b b' : Bool} (hb : b = b') {t x : R} {t' x' : R'} (ht : ρ t t')
    (hx : b' = true → ρ x x') : ρ (if b = true then t - x else t) (if b' = true then t' - x' else t') := by
  subst hb
  split_ifs with h
  · exact hS.sc.sub ht (hx h)
  · exact ht

theorem start_rel (mode : AddMode) {o : R} {o' : R'} (h : ρ o o') :
    ρ (Sys.start mode o) (Sys.start mode o') := by
  unfold Sys.start
  split_ifs
  · exact hS.sc.lit 0
  · exact h

theorem tend_rel_scalar (hF : S.F = scalarF) (hF' : S'.F = scalarF) (mode : AddMode) {t : R} {t' : R'} (ht : ρ t t') {o s : Fld R} {o' s' : Fld R'}
    (ho : FldRel ρ σ d o o') (hs : FldRel ρ σ d s s') (hw : Wet NZ d S'.M s') :
    FldRel ρ σ d (S.tend mode t o s) (S'.tend mode t' o' s') := by
  have hρ := hS.sc
  have hM := hS.mesh
  have ok := hS.ok
  have hh : ∀ k, 0 ≤ k → k < d.nlayers → FRel ρ σ.c d.ncells (Sys.hk s k) (Sys.hk s' k) :=
    fun k k0 k1 c c0 c1 => hs.h c k c0 c1 k0 k1
  have hv : ∀ k, 0 ≤ k → k < d.nlayers → FRel ρ σ.e d.nedges (Sys.vk s k) (Sys.vk s' k) :=
    fun k k0 k1 c c0 c1 => hs.vn c k c0 c1 k0 k1
  have hfl : ∀ k, 0 ≤ k → k < d.nlayers → FRel ρ σ.e d.nedges (S.flux s k) (S'.flux s' k) := by
    intro k k0 k1
    unfold Sys.flux
    rw [hF, hF']
    exact hmean_rel hρ hM ok (hh k k0 k1)
  constructor
  · intro c k c0 c1 k0 k1
    refine hS.hookH _ _ _ _ _ _ ht c0 c1 k0 k1 ?_
    rw [hS.dis_h]
    split_ifs
    · exact ho.h c k c0 c1 k0 k1
    · unfold Sys.termsH
      refine whenAdd_rel hS hS.en_hadv (start_rel hS mode (ho.h c k c0 c1 k0 k1)) fun _ => ?_
      rw [hF, hF']
      exact hadv_rel hρ hM ok (hv k k0 k1) (hfl k k0 k1) c c0 c1
  · intro e k e0 e1 k0 k1
    refine hS.hookV _ _ _ _ _ _ ht e0 e1 k0 k1 ?_
    rw [hS.dis_vn]
    split_ifs
    · exact ho.vn e k e0 e1 k0 k1
    · have hdiv : FRel ρ σ.c d.ncells (S.divC s k) (S'.divC s' k) := by
        unfold Sys.divC
        rw [hF, hF']
        exact div_rel hρ hM ok (hv k k0 k1)
      have hrv : FRel ρ σ.v d.nvertices (S.rv s k) (S'.rv s' k) := by
        unfold Sys.rv
        rw [hF, hF']
        exact rvort_rel hρ hM ok (hv k k0 k1)
      have hd2 : FRel ρ σ.e d.nedges (S.d2E s k) (S'.d2E s' k) := by
        unfold Sys.d2E
        rw [hF, hF']
        exact del2_rel hρ hM ok hdiv hrv
      unfold Sys.termsVn
      refine whenSub_rel hS hS.en_vhyper (whenAdd_rel hS hS.en_vdiff (whenSub_rel hS hS.en_ssh
        (whenSub_rel hS hS.en_ke (whenAdd_rel hS hS.en_pv
          (start_rel hS mode (ho.vn e k e0 e1 k0 k1)) fun _ => ?_) fun _ => ?_) fun _ => ?_)
          fun _ => ?_) fun _ => ?_
      · unfold Sys.nrvE Sys.npvE Sys.nrvV Sys.npvV
        rw [hF, hF']
        exact pv_rel hρ hM ok (vedge_rel hρ hM ok (nrv_rel hρ hM ok (hh k k0 k1) (hv k k0 k1)
          fun v v0 v1 => hw.1 v k v0 v1 k0 k1))
          (vedge_rel hρ hM ok (npv_rel hρ hM ok (hh k k0 k1) hS.f fun v v0 v1 => hw.1 v k v0 v1 k0 k1)) (hfl k k0 k1) (hv k k0 k1) e e0 e1
      · unfold Sys.keC
        rw [hF, hF']
        exact keG_rel hρ hM ok (ke_rel hρ hM ok (hv k k0 k1)) e e0 e1
      · rw [hF, hF']
        exact sshG_rel hρ hM ok hS.grav (hh k k0 k1) e e0 e1
      · rw [hF, hF']
        exact vdiff_rel hρ hM ok hS.visc2 k0 k1 hdiv hrv e e0 e1
      · unfold Sys.d2C Sys.d2V
        rw [hF, hF']
        exact vhyper_rel hρ hM ok hS.visc4 k0 k1 (del2div_rel hρ hM ok hd2)
          (rvort_rel hρ hM ok hd2) e e0 e1
  · intro l c k l0 l1 c0 c1 k0 k1
    have hn : FRel ρ σ.c d.ncells (S.ntrC s l k) (S'.ntrC s' l k) := by
      unfold Sys.ntrC
      rw [hF, hF']
      exact ntr_rel hρ hM ok (fun c c0 c1 => hs.tr l c k l0 l1 c0 c1 k0 k1) (hh k k0 k1)
        fun c c0 c1 => hw.2 (by omega) c k c0 c1 k0 k1
    unfold Sys.tend Sys.termsTr
    refine whenAdd_rel hS hS.en_thyper (whenAdd_rel hS hS.en_tdiff (whenAdd_rel hS hS.en_thadv
      (start_rel hS mode (ho.tr l c k l0 l1 c0 c1 k0 k1)) fun _ => ?_) fun _ => ?_) fun _ => ?_
    · rw [hF, hF']
      exact thadv_rel hρ hM ok (hv k k0 k1) hn (hfl k k0 k1) c c0 c1
    · rw [hF, hF']
      exact tdiff_rel hρ hM ok hS.eddy2 hn (hfl k k0 k1) c c0 c1
    · unfold Sys.t2C
      rw [hF, hF']
      exact thyper_rel hρ hM ok hS.eddy4 (tdel2_rel hρ hM ok hn (hfl k k0 k1)) c c0 c1

theorem tend_rel_simd (hF : S.F = simdF) (hF' : S'.F = simdF) (ev : S'.vl = S.vl) (vp : 0 < S.vl)
    (mode : AddMode) {t : R} {t' : R'} (ht : ρ t t') {o s : Fld R} {o' s' : Fld R'}
    (ho : FldRel ρ σ d o o') (hs : FldRel ρ σ d s s') (hw : Wet NZ d S'.M s') :
    FldRel ρ σ d (S.tend mode t o s) (S'.tend mode t' o' s') := by
  have hρ := hS.sc
  have hM := hS.mesh
  have ok := hS.ok
  have hh : ∀ k, 0 ≤ k → k < d.nlayers → FRel ρ σ.c d.ncells (Sys.hk s k) (Sys.hk s' k) :=
    fun k k0 k1 c c0 c1 => hs.h c k c0 c1 k0 k1
  have hv : ∀ k, 0 ≤ k → k < d.nlayers → FRel ρ σ.e d.nedges (Sys.vk s k) (Sys.vk s' k) :=
    fun k k0 k1 c c0 c1 => hs.vn c k c0 c1 k0 k1
  have hfl : ∀ k, 0 ≤ k → k < d.nlayers → FRel ρ σ.e d.nedges (S.flux s k) (S'.flux s' k) := by
    intro k k0 k1
    unfold Sys.flux
    rw [hF, hF']
    exact hmean_rel hρ hM ok (hh k k0 k1)
  constructor
  · intro c k c0 c1 k0 k1
    refine hS.hookH _ _ _ _ _ _ ht c0 c1 k0 k1 ?_
    rw [hS.dis_h]
    split_ifs
    · exact ho.h c k c0 c1 k0 k1
    · unfold Sys.termsH
      refine whenAdd_rel hS hS.en_hadv (start_rel hS mode (ho.h c k c0 c1 k0 k1)) fun _ => ?_
      rw [hF, hF']
      exact hadv_rel hρ hM ok (hv k k0 k1) (hfl k k0 k1) c c0 c1
  · intro e k e0 e1 k0 k1
    refine hS.hookV _ _ _ _ _ _ ht e0 e1 k0 k1 ?_
    rw [hS.dis_vn]
    split_ifs
    · exact ho.vn e k e0 e1 k0 k1
    · have hdv : ∀ k, 0 ≤ k → k < d.nlayers → FRel ρ σ.c d.ncells (S.divC s k) (S'.divC s' k) := fun k k0 k1 => by
        unfold Sys.divC
        rw [hF, hF']
        exact div_rel hρ hM ok (hv k k0 k1)
      have hrt : ∀ k, 0 ≤ k → k < d.nlayers → FRel ρ σ.v d.nvertices (S.rv s k) (S'.rv s' k) := fun k k0 k1 => by
        unfold Sys.rv
        rw [hF, hF']
        exact rvort_rel hρ hM ok (hv k k0 k1)
      have hd : ∀ k, 0 ≤ k → k < d.nlayers → FRel ρ σ.e d.nedges (S.d2E s k) (S'.d2E s' k) := fun k k0 k1 => by
        unfold Sys.d2E
        rw [hF, hF']
        exact del2_rel hρ hM ok (hdv k k0 k1) (hrt k k0 k1)
      have hdiv := hdv k k0 k1
      have hrv := hrt k k0 k1
      have hd2 := hd k k0 k1
      have q0 : 0 ≤ k / S.vl * S.vl := mul_nonneg (Int.ediv_nonneg k0 vp.le) vp.le
      have q1 : k / S.vl * S.vl ≤ k := Int.ediv_mul_le k vp.ne'
      unfold Sys.termsVn
      refine whenSub_rel hS hS.en_vhyper (whenAdd_rel hS hS.en_vdiff (whenSub_rel hS hS.en_ssh
        (whenSub_rel hS hS.en_ke (whenAdd_rel hS hS.en_pv
          (start_rel hS mode (ho.vn e k e0 e1 k0 k1)) fun _ => ?_) fun _ => ?_) fun _ => ?_)
          fun _ => ?_) fun _ => ?_
      · unfold Sys.nrvE Sys.npvE Sys.nrvV Sys.npvV
        rw [hF, hF']
        exact spv_rel hρ hM ok (vedge_rel hρ hM ok (snrv_rel hρ hM ok (hh k k0 k1) (hv k k0 k1)
          fun v v0 v1 => hw.1 v k v0 v1 k0 k1))
          (vedge_rel hρ hM ok (npv_rel hρ hM ok (hh k k0 k1) hS.f fun v v0 v1 => hw.1 v k v0 v1 k0 k1)) (hfl k k0 k1) (hv k k0 k1) e e0 e1
      · unfold Sys.keC
        rw [hF, hF']
        exact keG_rel hρ hM ok (ke_rel hρ hM ok (hv k k0 k1)) e e0 e1
      · rw [hF, hF']
        exact sshG_rel hρ hM ok hS.grav (hh k k0 k1) e e0 e1
      · rw [hF, hF']
        exact svdiff_rel hρ hM ok hS.visc2 k0 k1 hdiv hrv e e0 e1
      · unfold Sys.d2C Sys.d2V
        rw [hF, hF', ev]
        exact vhyper_rel hρ hM ok hS.visc4 k0 k1 (del2div_rel hρ hM ok hd2)
          (rvort_rel hρ hM ok (hd _ q0 (by omega))) e e0 e1
  · intro l c k l0 l1 c0 c1 k0 k1
    have hn : FRel ρ σ.c d.ncells (S.ntrC s l k) (S'.ntrC s' l k) := by
      unfold Sys.ntrC
      rw [hF, hF']
      exact ntr_rel hρ hM ok (fun c c0 c1 => hs.tr l c k l0 l1 c0 c1 k0 k1) (hh k k0 k1)
        fun c c0 c1 => hw.2 (by omega) c k c0 c1 k0 k1
    unfold Sys.tend Sys.termsTr
    refine whenAdd_rel hS hS.en_thyper (whenAdd_rel hS hS.en_tdiff (whenAdd_rel hS hS.en_thadv
      (start_rel hS mode (ho.tr l c k l0 l1 c0 c1 k0 k1)) fun _ => ?_) fun _ => ?_) fun _ => ?_
    · rw [hF, hF']
      exact sthadv_rel hρ hM ok (hv k k0 k1) hn (hfl k k0 k1) c c0 c1
    · rw [hF, hF']
      exact stdiff_rel hρ hM ok hS.eddy2 hn (hfl k k0 k1) c c0 c1
    · unfold Sys.t2C
      rw [hF, hF']
      exact thyper_rel hρ hM ok hS.eddy4 (tdel2_rel hρ hM ok hn (hfl k k0 k1)) c c0 c1

theorem tend_rel (mode : AddMode) {t : R} {t' : R'} (ht : ρ t t') {o s : Fld R} {o' s' : Fld R'}
    (ho : FldRel ρ σ d o o') (hs : FldRel ρ σ d s s') (hw : Wet NZ d S'.M s') :
    FldRel ρ σ d (S.tend mode t o s) (S'.tend mode t' o' s') := by
  rcases hS.F with ⟨hF, hF'⟩ | ⟨hF, hF', ev, vp⟩
  · exact tend_rel_scalar hS hF hF' mode ht ho hs hw
  · exact tend_rel_simd hS hF hF' ev vp mode ht ho hs hw

theorem axpy_rel {a : R} {a' : R'} (ha : ρ a a') {x y : Fld R} {x' y' : Fld R'}
    (hx : FldRel ρ σ d x x') (hy : FldRel ρ σ d y y') :
    FldRel ρ σ d (x.axpy a y) (x'.axpy a' y') :=
  ⟨fun c k h0 h1 h2 h3 => hS.sc.add (hx.h c k h0 h1 h2 h3) (hS.sc.mul ha (hy.h c k h0 h1 h2 h3)),
   fun c k h0 h1 h2 h3 => hS.sc.add (hx.vn c k h0 h1 h2 h3) (hS.sc.mul ha (hy.vn c k h0 h1 h2 h3)),
   fun l c k l0 l1 h0 h1 h2 h3 => hS.sc.add (hx.tr l c k l0 l1 h0 h1 h2 h3)
     (hS.sc.mul ha (hy.tr l c k l0 l1 h0 h1 h2 h3))⟩

theorem scale_rel {a : R} {a' : R'} (ha : ρ a a') {x : Fld R} {x' : Fld R'}
    (hx : FldRel ρ σ d x x') :
    FldRel ρ σ d (x.map fun v => v * a) (x'.map fun v => v * a') :=
  ⟨fun c k h0 h1 h2 h3 => hS.sc.mul (hx.h c k h0 h1 h2 h3) ha,
   fun c k h0 h1 h2 h3 => hS.sc.mul (hx.vn c k h0 h1 h2 h3) ha,
   fun l c k l0 l1 h0 h1 h2 h3 => hS.sc.mul (hx.tr l c k l0 l1 h0 h1 h2 h3) ha⟩

theorem zeroFld_rel : FldRel ρ σ d (zeroFld : Fld R) (zeroFld : Fld R') :=
  ⟨fun _ _ _ _ _ _ => hS.sc.lit 0, fun _ _ _ _ _ _ => hS.sc.lit 0,
    fun _ _ _ _ _ _ _ _ _ => hS.sc.lit 0⟩

omit hS in
theorem nth_rel (hρ : ScRel ρ NZ) {L : List R} {L' : List R'} (h : List.Forall₂ ρ L L') (i : Nat) :
    ρ (nth L i) (nth L' i) := by
  unfold nth
  induction h generalizing i with
  | nil => exact hρ.lit 0
  | cons hab _ ih =>
    cases i with
    | zero => exact hab
    | succ i => simpa using ih i

omit hS in
theorem lsrkCoef_rel (hρ : ScRel ρ NZ) (n i : Nat) :
    ρ ((lsrkCoef n : Coef R).a i) ((lsrkCoef n : Coef R').a i) ∧
    ρ ((lsrkCoef n : Coef R).b i) ((lsrkCoef n : Coef R').b i) ∧
    ρ ((lsrkCoef n : Coef R).c i) ((lsrkCoef n : Coef R').c i) := by
  have q : ∀ a b : Int, b ≠ 0 → ρ (lit a / lit b) (lit a / lit b) := fun a b hb =>
    hρ.div (hρ.lit a) (hρ.lit b) (hρ.nz b hb)
  unfold lsrkCoef
  split_ifs
  · refine ⟨nth_rel hρ ?_ i, nth_rel hρ ?_ i, nth_rel hρ ?_ i⟩ <;>
      repeat' first | exact List.Forall₂.nil | refine List.Forall₂.cons ?_ ?_ | exact hρ.lit _ |
        exact q _ _ (by decide)
  · refine ⟨nth_rel hρ ?_ i, nth_rel hρ ?_ i, nth_rel hρ ?_ i⟩ <;>
      repeat' first | exact List.Forall₂.nil | refine List.Forall₂.cons ?_ ?_ | exact hρ.lit _ |
        exact q _ _ (by decide)
  · exact ⟨hρ.lit 0, hρ.lit 0, hρ.lit 0⟩

omit hS in
theorem rk4Coef_rel (hρ : ScRel ρ NZ) (i : Nat) :
    ρ ((rk4Coef : Coef R).a i) ((rk4Coef : Coef R').a i) ∧
    ρ ((rk4Coef : Coef R).b i) ((rk4Coef : Coef R').b i) ∧
    ρ ((rk4Coef : Coef R).c i) ((rk4Coef : Coef R').c i) := by
  have q : ∀ a b : Int, b ≠ 0 → ρ (lit a / lit b) (lit a / lit b) := fun a b hb =>
    hρ.div (hρ.lit a) (hρ.lit b) (hρ.nz b hb)
  unfold rk4Coef
  refine ⟨nth_rel hρ ?_ i, nth_rel hρ ?_ i, nth_rel hρ ?_ i⟩ <;>
      repeat' first | exact List.Forall₂.nil | refine List.Forall₂.cons ?_ ?_ | exact hρ.lit _ |
        exact q _ _ (by decide)

/-- a pair (tendency, state) -/
abbrev PairRel (ρ : R → R' → Prop) (σ : Ren) (d : Dims) (p : Fld R × Fld R) (q : Fld R' × Fld R') :
    Prop := FldRel ρ σ d p.1 q.1 ∧ FldRel ρ σ d p.2 q.2

theorem lsrk_rel (C : Coef R) (C' : Coef R') (hC : ∀ i, ρ (C.a i) (C'.a i) ∧ ρ (C.b i) (C'.b i) ∧
    ρ (C.c i) (C'.c i)) {t dt : R} {t' dt' : R'} (ht : ρ t t') (hdt : ρ dt dt') (L : List Nat)
    {p : Fld R × Fld R} {q : Fld R' × Fld R'} (h : PairRel ρ σ d p q)
    (hw : ∀ x ∈ S'.lsrkEvals C' t' dt' L q, Wet NZ d S'.M x) :
    PairRel ρ σ d (L.foldl (fun p i => S.lsrkStage C t dt i p) p)
      (L.foldl (fun p i => S'.lsrkStage C' t' dt' i p) q) := by
  have hρ := hS.sc
  induction L generalizing p q with
  | nil => exact h
  | cons i L ih =>
    obtain ⟨ca, cb, cc⟩ := hC i
    have := tend_rel hS .increment (hρ.add ht (hρ.mul cc hdt)) (scale_rel hS ca h.1) h.2
      (hw q.2 (by simp [Sys.lsrkEvals]))
    exact ih (p := S.lsrkStage C t dt i p) (q := S'.lsrkStage C' t' dt' i q)
      ⟨this, axpy_rel hS (hρ.mul hdt cb) h.2 this⟩ fun x hx => hw x (by simp [Sys.lsrkEvals, hx])

theorem rk4_rel (C : Coef R) (C' : Coef R') (hC : ∀ i, ρ (C.a i) (C'.a i) ∧ ρ (C.b i) (C'.b i) ∧
    ρ (C.c i) (C'.c i)) {t dt : R} {t' dt' : R'} (ht : ρ t t') (hdt : ρ dt dt') (L : List Nat)
    {o : Fld R} {o' : Fld R'} (ho : FldRel ρ σ d o o')
    {p : Fld R × Fld R} {q : Fld R' × Fld R'} (h : PairRel ρ σ d p q)
    (hw : ∀ x ∈ S'.rk4Evals C' t' dt' o' L q, Wet NZ d S'.M x) :
    PairRel ρ σ d (L.foldl (fun p i => S.rk4Stage C t dt o i p) p)
      (L.foldl (fun p i => S'.rk4Stage C' t' dt' o' i p) q) := by
  have hρ := hS.sc
  induction L generalizing p q with
  | nil => exact h
  | cons i L ih =>
    obtain ⟨ca, cb, cc⟩ := hC i
    refine ih (p := S.rk4Stage C t dt o i p) (q := S'.rk4Stage C' t' dt' o' i q)
      ⟨?_, axpy_rel hS (hρ.mul hdt cb) h.2 h.1⟩ fun x hx => hw x (by simp [Sys.rk4Evals, hx])
    simp only [Sys.rk4Stage]
    split_ifs with hi
    · exact tend_rel hS .replace (hρ.add ht (hρ.mul cc hdt)) h.1
        (axpy_rel hS (hρ.mul hdt ca) ho h.1) (hw _ (by simp [Sys.rk4Evals, hi]))
    · exact h.1

theorem step_rel (stp : Stepper) {t dt : R} {t' dt' : R'} (ht : ρ t t') (hdt : ρ dt dt')
    {p : Fld R × Fld R} {q : Fld R' × Fld R'} (h : PairRel ρ σ d p q)
    (hw : ∀ x ∈ S'.stepEvals t' dt' q stp, Wet NZ d S'.M x) :
    PairRel ρ σ d (S.step t dt p stp) (S'.step t' dt' q stp) := by
  cases stp with
  | lsrk n => exact lsrk_rel hS _ _ (lsrkCoef_rel hS.sc n) ht hdt _ h hw
  | rk4 =>
    exact rk4_rel hS _ _ (rk4Coef_rel hS.sc) ht hdt _ h.2
      ⟨tend_rel hS .replace ht h.1 h.2 (hw q.2 (by simp [Sys.stepEvals])), h.2⟩
      fun x hx => hw x (by simp [Sys.stepEvals, hx])

theorem run_rel (stp : Stepper) {sched : List (R × R)} {sched' : List (R' × R')}
    (hs : List.Forall₂ (fun x y => ρ x.1 y.1 ∧ ρ x.2 y.2) sched sched')
    {p : Fld R × Fld R} {q : Fld R' × Fld R'} (h : PairRel ρ σ d p q)
    (hw : ∀ x ∈ S'.evals stp sched' q, Wet NZ d S'.M x) :
    PairRel ρ σ d (S.run stp sched p) (S'.run stp sched' q) := by
  unfold Sys.run
  induction hs generalizing p q with
  | nil => exact h
  | cons hxy _ ih =>
    exact ih (step_rel hS stp hxy.1 hxy.2 h fun x hx => hw x (by simp [Sys.evals, hx]))
      fun x hx => hw x (by simp [Sys.evals, hx])

omit hS in
theorem Wet.local {M : Mesh R'} (ok : MeshOK d M) {x y : Fld R'} (h : EqFld d x y)
    (hx : Wet NZ d M x) : Wet NZ d M y := by
  refine ⟨fun v k v0 v1 k0 k1 => ?_, fun hn c k c0 c1 k0 k1 => ?_⟩
  · rw [show Fn.hvert M (Sys.hk y k) v = Fn.hvert M (Sys.hk x k) v from foldI_congr _ _ _ _
      fun j j0 j1 a => by
        have hc := ok.cov v v0 v1 j j0 j1
        simp only [Sys.hk]
        rw [h.h _ k hc.1 hc.2 k0 k1]]
    exact hx.1 v k v0 v1 k0 k1
  · rw [← h.h c k c0 c1 k0 k1]
    exact hx.2 hn c k c0 c1 k0 k1

/-- Executions of related configurations from related states end in related states. -/
theorem newRun_rel {K : Kernels R} {K' : Kernels R'} {m m1 : Mem R} {m' m1' : Mem R'}
    (hm : Setup d K S m) (hm' : Setup d K' S' m') (hst : FldRel ρ σ d (m.fld .state) (m'.fld .state))
    (stp : Stepper) {sched : List (R × R)} {sched' : List (R' × R')}
    (hs : List.Forall₂ (fun x y => ρ x.1 y.1 ∧ ρ x.2 y.2) sched sched') {split split' : Bool}
    (he : Exec d (stp.ctor d ++ stp.run d ⟨K, split⟩ S.sw sched) m m1)
    (he' : Exec d (stp.ctor d ++ stp.run d ⟨K', split'⟩ S'.sw sched') m' m1')
    (hw : ∀ st m2, CallsAt d ⟨K', split'⟩ S'.sw stp sched' m' st m2 → Wet NZ d S'.M (m2.fld st)) :
    FldRel ρ σ d (m1.fld .state) (m1'.fld .state) := by
  obtain ⟨-, -, v⟩ := hm.newRun he
  obtain ⟨-, -, v'⟩ := hm'.newRun he'
  have key := (run_rel hS stp hs (p := (zeroFld, m.fld .state)) (q := (zeroFld, m'.fld .state))
    ⟨zeroFld_rel hS, hst⟩ fun x hx => by
      obtain ⟨⟨pre, st⟩, hq, m2, hx', e⟩ := newRun_called hm' split' stp sched' x hx
      exact Wet.local hS.ok e (hw st m2 ⟨pre, hq, hx'⟩)).2
  constructor
  · intro c k c0 c1 k0 k1
    rw [v.h _ k (hS.ren.c c c0 c1).1 (hS.ren.c c c0 c1).2 k0 k1, v'.h c k c0 c1 k0 k1]
    exact key.h c k c0 c1 k0 k1
  · intro c k c0 c1 k0 k1
    rw [v.vn _ k (hS.ren.e c c0 c1).1 (hS.ren.e c c0 c1).2 k0 k1, v'.vn c k c0 c1 k0 k1]
    exact key.vn c k c0 c1 k0 k1
  · intro l c k l0 l1 c0 c1 k0 k1
    rw [v.tr l _ k l0 l1 (hS.ren.c c c0 c1).1 (hS.ren.c c c0 c1).2 k0 k1,
      v'.tr l c k l0 l1 c0 c1 k0 k1]
    exact key.tr l c k l0 l1 c0 c1 k0 k1

/-- Tendencies of related configurations at related states. -/
theorem tendency_rel {K : Kernels R} {K' : Kernels R'} {m m1 : Mem R} {m' m1' : Mem R'}
    (hm : Setup d K S m) (hm' : Setup d K' S' m') {tn st : StateId} (hne : st ≠ tn)
    (hst : FldRel ρ σ d (m.fld st) (m'.fld st)) (htn : FldRel ρ σ d (m.fld tn) (m'.fld tn))
    (hw : Wet NZ d S'.M (m'.fld st)) (mode : AddMode) {t : R} {t' : R'} (ht : ρ t t') {split split' : Bool}
    (he : Exec d (compute_tendency d ⟨K, split⟩ S.sw mode tn st t) m m1)
    (he' : Exec d (compute_tendency d ⟨K', split'⟩ S'.sw mode tn st t') m' m1') :
    FldRel ρ σ d (m1.fld tn) (m1'.fld tn) := by
  obtain ⟨-, v⟩ := hm.tendency hne he
  obtain ⟨-, v'⟩ := hm'.tendency hne he'
  have key := tend_rel hS mode ht htn hst hw
  constructor
  · intro c k c0 c1 k0 k1
    rw [v.h _ k (hS.ren.c c c0 c1).1 (hS.ren.c c c0 c1).2 k0 k1, v'.h c k c0 c1 k0 k1]
    exact key.h c k c0 c1 k0 k1
  · intro c k c0 c1 k0 k1
    rw [v.vn _ k (hS.ren.e c c0 c1).1 (hS.ren.e c c0 c1).2 k0 k1, v'.vn c k c0 c1 k0 k1]
    exact key.vn c k c0 c1 k0 k1
  · intro l c k l0 l1 c0 c1 k0 k1
    rw [v.tr l _ k l0 l1 (hS.ren.c c c0 c1).1 (hS.ren.c c c0 c1).2 k0 k1,
      v'.tr l c k l0 l1 c0 c1 k0 k1]
    exact key.tr l c k l0 l1 c0 c1 k0 k1

end

end Refine
end Omega
