import Verif.Refine.Rel
import Verif.Refine.SimdOps

/-!
# Systems that differ by a change of units

Two runs in the same arithmetic, the numbers of one being those of the other times a factor that depends on the kind of
quantity.  The factors are written additively: they form a commutative group `G` (exponents of two, or signs), and
`sc g x y` says that `y` is `x` times the factor `g`.  The arithmetic only has to satisfy `ScaleLaws`, which is exact in
floating point for the factors that floating point can represent without rounding.
-/

set_option linter.unusedVariables false
set_option linter.unusedSectionVars false

namespace Omega
namespace Refine

open Model

variable {G R : Type} [AddCommGroup G] [Scalar R]

/-- The arithmetic commutes with the factors. -/
structure ScaleLaws (sc : G → R → R → Prop) : Prop where
  refl : ∀ x, sc 0 x x
  zero : ∀ g, sc g (lit 0) (lit 0)
  add : ∀ {g x x' y y'}, sc g x x' → sc g y y' → sc g (x + y) (x' + y')
  sub : ∀ {g x x' y y'}, sc g x x' → sc g y y' → sc g (x - y) (x' - y')
  mul : ∀ {g h x x' y y'}, sc g x x' → sc h y y' → sc (g + h) (x * y) (x' * y')
  div : ∀ {g h x x' y y'}, sc g x x' → sc h y y' → sc (g - h) (x / y) (x' / y')

/-- rows of a field, times a factor -/
def GOn (sc : G → R → R → Prop) (g : G) (n : Int) (x y : Int → R) : Prop :=
  ∀ i, 0 ≤ i → i < n → sc g (x i) (y i)

/-- The same mesh with lengths times `L`. -/
structure MeshSc (sc : G → R → R → Prop) (L : G) (d : Dims) (M M' : Mesh R) : Prop where
  neoc : ∀ c, 0 ≤ c → c < d.ncells → M'.neoc c = M.neoc c
  eoc : ∀ c, 0 ≤ c → c < d.ncells → ∀ j, 0 ≤ j → j < M.neoc c → M'.eoc c j = M.eoc c j
  coe : ∀ e, 0 ≤ e → e < d.nedges → ∀ s, 0 ≤ s → s < 2 → M'.coe e s = M.coe e s
  voe : ∀ e, 0 ≤ e → e < d.nedges → ∀ s, 0 ≤ s → s < 2 → M'.voe e s = M.voe e s
  eov : ∀ v, 0 ≤ v → v < d.nvertices → ∀ s, 0 ≤ s → s < 3 → M'.eov v s = M.eov v s
  cov : ∀ v, 0 ≤ v → v < d.nvertices → ∀ s, 0 ≤ s → s < 3 → M'.cov v s = M.cov v s
  neoe : ∀ e, 0 ≤ e → e < d.nedges → M'.neoe e = M.neoe e
  eoe : ∀ e, 0 ≤ e → e < d.nedges → ∀ j, 0 ≤ j → j < M.neoe e → M'.eoe e j = M.eoe e j
  areaCell : GOn sc (L + L) d.ncells M.areaCell M'.areaCell
  areaTri : GOn sc (L + L) d.nvertices M.areaTri M'.areaTri
  dv : GOn sc L d.nedges M.dv M'.dv
  dc : GOn sc L d.nedges M.dc M'.dc
  dvFloor : GOn sc L d.nedges (fun e => maxS (M.dv e) (quarter * M.dc e)) (fun e => maxS (M'.dv e) (quarter * M'.dc e))
  signC : ∀ c, 0 ≤ c → c < d.ncells → ∀ j, 0 ≤ j → j < M.neoc c → sc 0 (M.signC c j) (M'.signC c j)
  signV : ∀ v, 0 ≤ v → v < d.nvertices → ∀ s, 0 ≤ s → s < 3 → sc 0 (M.signV v s) (M'.signV v s)
  kite : ∀ v, 0 ≤ v → v < d.nvertices → ∀ s, 0 ≤ s → s < 3 → sc (L + L) (M.kite v s) (M'.kite v s)
  woe : ∀ e, 0 ≤ e → e < d.nedges → ∀ j, 0 ≤ j → j < M.neoe e → sc 0 (M.woe e j) (M'.woe e j)
  mask : ∀ e, 0 ≤ e → e < d.nedges → ∀ k, 0 ≤ k → k < d.nlayers → sc 0 (M.mask e k) (M'.mask e k)
  sdel2 : GOn sc 0 d.nedges M.sdel2 M'.sdel2
  sdel4 : GOn sc 0 d.nedges M.sdel4 M'.sdel4

section

variable {sc : G → R → R → Prop}

theorem ScaleLaws.cast (h : ScaleLaws sc) {g g' : G} {x y : R} (k : sc g x y) (e : g = g') : sc g' x y := e ▸ k
theorem GOn.cast {g g' : G} {n : Int} {x y : Int → R} (k : GOn sc g n x y) (e : g = g') : GOn sc g' n x y := e ▸ k

/-- multiplication by a constant without dimension -/
theorem ScaleLaws.mulC (h : ScaleLaws sc) {g : G} {x y : R} (k : sc g x y) (a : R) : sc g (x * a) (y * a) :=
  h.cast (h.mul k (h.refl a)) (by abel)
theorem ScaleLaws.Cmul (h : ScaleLaws sc) {g : G} {x y : R} (k : sc g x y) (a : R) : sc g (a * x) (a * y) :=
  h.cast (h.mul (h.refl a) k) (by abel)
theorem ScaleLaws.inv (h : ScaleLaws sc) {g : G} {x y : R} (k : sc g x y) : sc (-g) (lit 1 / x) (lit 1 / y) :=
  h.cast (h.div (h.refl (lit 1)) k) (by abel)

variable {L : G} {d : Dims} {M M' : Mesh R} (hρ : ScaleLaws sc) (hM : MeshSc sc L d M M') (ok : MeshOK d M)
include hρ hM ok

/-- fields on cells, edges, vertices -/
local notation "OnC" => fun g => GOn sc g d.ncells
local notation "OnE" => fun g => GOn sc g d.nedges
local notation "OnV" => fun g => GOn sc g d.nvertices

variable {a b g q : G} {x y x' y' x1 x2 x3 x4 y1 y2 y3 y4 : Int → R}

theorem eoc_g (h : OnE a x y) {c j : Int} (h0 : 0 ≤ c) (h1 : c < d.ncells) (j0 : 0 ≤ j) (j1 : j < M.neoc c) :
    sc a (x (M.eoc c j)) (y (M'.eoc c j)) := by
  rw [hM.eoc c h0 h1 j j0 j1]
  exact h _ (ok.eoc c h0 h1 j j0 j1).1 (ok.eoc c h0 h1 j j0 j1).2
theorem eoe_g (h : OnE a x y) {c j : Int} (h0 : 0 ≤ c) (h1 : c < d.nedges) (j0 : 0 ≤ j) (j1 : j < M.neoe c) :
    sc a (x (M.eoe c j)) (y (M'.eoe c j)) := by
  rw [hM.eoe c h0 h1 j j0 j1]
  exact h _ (ok.eoe c h0 h1 j j0 j1).1 (ok.eoe c h0 h1 j j0 j1).2
theorem coe_g (h : OnC a x y) {e s : Int} (h0 : 0 ≤ e) (h1 : e < d.nedges) (s0 : 0 ≤ s) (s1 : s < 2) :
    sc a (x (M.coe e s)) (y (M'.coe e s)) := by
  rw [hM.coe e h0 h1 s s0 s1]
  exact h _ (ok.coe e h0 h1 s s0 s1).1 (ok.coe e h0 h1 s s0 s1).2
theorem voe_g (h : OnV a x y) {e s : Int} (h0 : 0 ≤ e) (h1 : e < d.nedges) (s0 : 0 ≤ s) (s1 : s < 2) :
    sc a (x (M.voe e s)) (y (M'.voe e s)) := by
  rw [hM.voe e h0 h1 s s0 s1]
  exact h _ (ok.voe e h0 h1 s s0 s1).1 (ok.voe e h0 h1 s s0 s1).2
theorem eov_g (h : OnE a x y) {v s : Int} (h0 : 0 ≤ v) (h1 : v < d.nvertices) (s0 : 0 ≤ s) (s1 : s < 3) :
    sc a (x (M.eov v s)) (y (M'.eov v s)) := by
  rw [hM.eov v h0 h1 s s0 s1]
  exact h _ (ok.eov v h0 h1 s s0 s1).1 (ok.eov v h0 h1 s s0 s1).2
theorem cov_g (h : OnC a x y) {v s : Int} (h0 : 0 ≤ v) (h1 : v < d.nvertices) (s0 : 0 ≤ s) (s1 : s < 3) :
    sc a (x (M.cov v s)) (y (M'.cov v s)) := by
  rw [hM.cov v h0 h1 s s0 s1]
  exact h _ (ok.cov v h0 h1 s s0 s1).1 (ok.cov v h0 h1 s s0 s1).2

/-- a sum around a cell -/
theorem cellSum_g {f f' : Int → R → R} {c : Int} (h0 : 0 ≤ c) (h1 : c < d.ncells)
    (h : ∀ j, 0 ≤ j → j < M.neoc c → ∀ s s', sc g s s' → sc g (f j s) (f' j s')) :
    sc g (foldI (M.neoc c) (lit 0) f) (foldI (M'.neoc c) (lit 0) f') := by
  rw [hM.neoc c h0 h1]
  exact foldI_rel (hρ.zero g) h

theorem ke_g (h : OnE a x y) : OnC (a + a) (Fn.ke M x) (Fn.ke M' y) := fun c h0 h1 =>
  cellSum_g hρ hM ok h0 h1 fun j j0 j1 s s' hs => by
    have e := eoc_g hρ hM ok h h0 h1 j0 j1
    exact hρ.add hs (hρ.mulC (hρ.cast (hρ.mul (hρ.mul (hρ.mul (hρ.inv (hM.areaCell c h0 h1))
      (hρ.mul (eoc_g hρ hM ok hM.dv h0 h1 j0 j1) (eoc_g hρ hM ok hM.dc h0 h1 j0 j1))) e) e) (by abel)) _)

theorem div_g (h : OnE a x y) : OnC (a - L) (Fn.div M x) (Fn.div M' y) := fun c h0 h1 =>
  cellSum_g hρ hM ok h0 h1 fun j j0 j1 s s' hs =>
    hρ.add hs (hρ.cast (hρ.mul (hρ.mul (hρ.mul (hρ.inv (hM.areaCell c h0 h1))
      (eoc_g hρ hM ok hM.dv h0 h1 j0 j1)) (hM.signC c h0 h1 j j0 j1)) (eoc_g hρ hM ok h h0 h1 j0 j1)) (by abel))

theorem del2div_g (h : OnE a x y) : OnC (a - L) (Fn.del2div M x) (Fn.del2div M' y) := fun c h0 h1 =>
  cellSum_g hρ hM ok h0 h1 fun j j0 j1 s s' hs =>
    hρ.add hs (hρ.cast (hρ.mul (hρ.mul (hρ.mul (eoc_g hρ hM ok hM.dv h0 h1 j0 j1) (hρ.inv (hM.areaCell c h0 h1)))
      (hM.signC c h0 h1 j j0 j1)) (eoc_g hρ hM ok h h0 h1 j0 j1)) (by abel))

theorem hmean_g (h : OnC a x y) : OnE a (Fn.hmean M x) (Fn.hmean M' y) := fun e h0 h1 =>
  hρ.Cmul (hρ.add (coe_g hρ hM ok h h0 h1 (by omega) (by omega)) (coe_g hρ hM ok h h0 h1 (by omega) (by omega))) _

theorem vedge_g (h : OnV a x y) : OnE a (Fn.vedge M x) (Fn.vedge M' y) := fun e h0 h1 =>
  hρ.Cmul (hρ.add (voe_g hρ hM ok h h0 h1 (by omega) (by omega)) (voe_g hρ hM ok h h0 h1 (by omega) (by omega))) _

omit hM ok in
theorem ntr_g (h : OnC a x y) (h' : OnC b x' y') : OnC (a - b) (Fn.ntr x x') (Fn.ntr y y') := fun c h0 h1 =>
  hρ.cast (hρ.mul (h c h0 h1) (hρ.inv (h' c h0 h1))) (by abel)

theorem rvort_g (h : OnE a x y) : OnV (a - L) (Fn.rvort M x) (Fn.rvort M' y) := fun v h0 h1 =>
  foldI_rel (hρ.zero _) fun j j0 j1 s s' hs => hρ.add hs (hρ.cast (hρ.mul (hρ.mul (hρ.mul
    (eov_g hρ hM ok hM.dc h0 h1 j0 j1) (hρ.inv (hM.areaTri v h0 h1))) (hM.signV v h0 h1 j j0 j1))
    (eov_g hρ hM ok h h0 h1 j0 j1)) (by abel))

theorem hvert_g (h : OnC a x y) : OnV a (Fn.hvert M x) (Fn.hvert M' y) := fun v h0 h1 =>
  foldI_rel (hρ.zero _) fun j j0 j1 s s' hs => hρ.add hs (hρ.cast (hρ.mul (hρ.mul (hM.kite v h0 h1 j j0 j1)
    (hρ.inv (hM.areaTri v h0 h1))) (cov_g hρ hM ok h h0 h1 j0 j1)) (by abel))

theorem nrv_g (h : OnC a x y) (h' : OnE b x' y') : OnV (b - L - a) (Fn.nrv M x x') (Fn.nrv M' y y') := fun v h0 h1 =>
  hρ.cast (hρ.mul (hρ.inv (hvert_g hρ hM ok h v h0 h1)) (rvort_g hρ hM ok h' v h0 h1)) (by abel)

theorem nrv_g' (h : OnC a x y) (h' : OnE b x' y') : OnV (b - L - a) (SFn.nrv M x x') (SFn.nrv M' y y') := fun v h0 h1 =>
  hρ.cast (hρ.mul (rvort_g hρ hM ok h' v h0 h1) (hρ.inv (hvert_g hρ hM ok h v h0 h1))) (by abel)

theorem npv_g (h : OnC a x y) (h' : OnV b x' y') : OnV (b - a) (Fn.npv M x x') (Fn.npv M' y y') := fun v h0 h1 =>
  hρ.cast (hρ.mul (hρ.inv (hvert_g hρ hM ok h v h0 h1)) (h' v h0 h1)) (by abel)

theorem hadv_g (h : OnE a x y) (h' : OnE b x' y') : OnC (a + b - L) (Fn.hadv M x x') (Fn.hadv M' y y') := fun c h0 h1 =>
  cellSum_g hρ hM ok h0 h1 fun j j0 j1 s s' hs =>
    hρ.sub hs (hρ.cast (hρ.mul (hρ.mul (hρ.mul (hρ.mul (eoc_g hρ hM ok hM.dv h0 h1 j0 j1)
      (hρ.inv (hM.areaCell c h0 h1))) (hM.signC c h0 h1 j j0 j1)) (eoc_g hρ hM ok h' h0 h1 j0 j1))
      (eoc_g hρ hM ok h h0 h1 j0 j1)) (by abel))

theorem pv_g (g1 : OnE q x1 y1) (g2 : OnE q x2 y2) (g3 : OnE a x3 y3) (g4 : OnE b x4 y4) :
    OnE (a + b + q) (Fn.pv M x1 x2 x3 x4) (Fn.pv M' y1 y2 y3 y4) := by
  intro e h0 h1
  unfold Fn.pv
  rw [hM.neoe e h0 h1]
  refine foldI_rel (hρ.zero _) fun j j0 j1 s s' hs => ?_
  exact hρ.add hs (hρ.cast (hρ.mul (hρ.mul (hρ.mul (hM.woe e h0 h1 j j0 j1) (eoe_g hρ hM ok g3 h0 h1 j0 j1))
    (eoe_g hρ hM ok g4 h0 h1 j0 j1)) (hρ.mulC (hρ.add (hρ.add (hρ.add (g1 e h0 h1) (g2 e h0 h1))
      (eoe_g hρ hM ok g1 h0 h1 j0 j1)) (eoe_g hρ hM ok g2 h0 h1 j0 j1)) half)) (by abel))

theorem pv_g' (g1 : OnE q x1 y1) (g2 : OnE q x2 y2) (g3 : OnE a x3 y3) (g4 : OnE b x4 y4) :
    OnE (a + b + q) (SFn.pv M x1 x2 x3 x4) (SFn.pv M' y1 y2 y3 y4) := by
  intro e h0 h1
  unfold SFn.pv
  rw [hM.neoe e h0 h1]
  refine foldI_rel (hρ.zero _) fun j j0 j1 s s' hs => ?_
  exact hρ.add hs (hρ.cast (hρ.mul (hρ.mul (hρ.mul (hM.woe e h0 h1 j j0 j1) (eoe_g hρ hM ok g3 h0 h1 j0 j1))
    (eoe_g hρ hM ok g4 h0 h1 j0 j1)) (hρ.Cmul (hρ.add (hρ.add (hρ.add (g1 e h0 h1) (g2 e h0 h1))
      (eoe_g hρ hM ok g1 h0 h1 j0 j1)) (eoe_g hρ hM ok g2 h0 h1 j0 j1)) half)) (by abel))

/-- difference of the values in the two cells of an edge, over their distance -/
theorem cgrad_g (h : OnC a x y) : OnE (a - L) (fun e => (x (M.coe e 1) - x (M.coe e 0)) * (lit 1 / M.dc e))
    (fun e => (y (M'.coe e 1) - y (M'.coe e 0)) * (lit 1 / M'.dc e)) := fun e h0 h1 =>
  hρ.cast (hρ.mul (hρ.sub (coe_g hρ hM ok h h0 h1 (by omega) (by omega)) (coe_g hρ hM ok h h0 h1 (by omega) (by omega)))
    (hρ.inv (hM.dc e h0 h1))) (by abel)

theorem vgrad_g (h : OnV a x y) : OnE (a - L) (fun e => (x (M.voe e 1) - x (M.voe e 0)) * (lit 1 / M.dv e))
    (fun e => (y (M'.voe e 1) - y (M'.voe e 0)) * (lit 1 / M'.dv e)) := fun e h0 h1 =>
  hρ.cast (hρ.mul (hρ.sub (voe_g hρ hM ok h h0 h1 (by omega) (by omega)) (voe_g hρ hM ok h h0 h1 (by omega) (by omega)))
    (hρ.inv (hM.dv e h0 h1))) (by abel)

theorem keG_g (h : OnC a x y) : OnE (a - L) (Fn.keG M x) (Fn.keG M' y) := cgrad_g hρ hM ok h

theorem sshG_g {z z' : R} (hz : sc g z z') (h : OnC a x y) : OnE (g + a - L) (Fn.sshG M z x) (Fn.sshG M' z' y) :=
  fun e h0 h1 => hρ.cast (hρ.mul (hρ.mul hz (hρ.sub (coe_g hρ hM ok h h0 h1 (by omega) (by omega))
    (coe_g hρ hM ok h h0 h1 (by omega) (by omega)))) (hρ.inv (hM.dc e h0 h1))) (by abel)

theorem vdiff_g {z z' : R} (hz : sc g z z') {k : Int} (k0 : 0 ≤ k) (k1 : k < d.nlayers) (h : OnC a x y) (h' : OnV a x' y') :
    OnE (g + (a - L)) (Fn.vdiff M z k x x') (Fn.vdiff M' z' k y y') := fun e h0 h1 =>
  hρ.cast (hρ.mul (hρ.mul (hρ.mul (hM.mask e h0 h1 k k0 k1) hz) (hM.sdel2 e h0 h1))
    (hρ.sub (cgrad_g hρ hM ok h e h0 h1) (vgrad_g hρ hM ok h' e h0 h1))) (by abel)

theorem vdiff_g' {z z' : R} (hz : sc g z z') {k : Int} (k0 : 0 ≤ k) (k1 : k < d.nlayers) (h : OnC a x y) (h' : OnV a x' y') :
    OnE (g + (a - L)) (SFn.vdiff M z k x x') (SFn.vdiff M' z' k y y') := fun e h0 h1 =>
  hρ.cast (hρ.mul (hρ.mul (hρ.mul hz (hM.sdel2 e h0 h1)) (hM.mask e h0 h1 k k0 k1))
    (hρ.sub (cgrad_g hρ hM ok h e h0 h1) (vgrad_g hρ hM ok h' e h0 h1))) (by abel)

theorem vhyper_g {z z' : R} (hz : sc g z z') {k : Int} (k0 : 0 ≤ k) (k1 : k < d.nlayers) (h : OnC a x y) (h' : OnV a x' y') :
    OnE (g + (a - L)) (Fn.vhyper M z k x x') (Fn.vhyper M' z' k y y') := fun e h0 h1 =>
  hρ.cast (hρ.mul (hρ.mul (hρ.mul (hM.mask e h0 h1 k k0 k1) hz) (hM.sdel4 e h0 h1))
    (hρ.sub (cgrad_g hρ hM ok h e h0 h1) (vgrad_g hρ hM ok h' e h0 h1))) (by abel)

theorem del2_g (h : OnC a x y) (h' : OnV a x' y') : OnE (a - L) (Fn.del2 M x x') (Fn.del2 M' y y') := fun e h0 h1 =>
  hρ.sub (cgrad_g hρ hM ok h e h0 h1) (hρ.cast (hρ.mul (hρ.sub (voe_g hρ hM ok h' h0 h1 (by omega) (by omega))
    (voe_g hρ hM ok h' h0 h1 (by omega) (by omega))) (hρ.inv (hM.dvFloor e h0 h1))) (by abel))

/-- the gradient on an edge of a cell -/
theorem tgrad_g (h : OnC a x y) {c j : Int} (h0 : 0 ≤ c) (h1 : c < d.ncells) (j0 : 0 ≤ j) (j1 : j < M.neoc c) :
    sc (a - L) ((x (M.coe (M.eoc c j) 1) - x (M.coe (M.eoc c j) 0)) * (lit 1 / M.dc (M.eoc c j)))
      ((y (M'.coe (M'.eoc c j) 1) - y (M'.coe (M'.eoc c j) 0)) * (lit 1 / M'.dc (M'.eoc c j))) :=
  eoc_g hρ hM ok (cgrad_g hρ hM ok h) h0 h1 j0 j1

/-- the sum of the two cells of an edge of a cell -/
theorem tsum_g (h : OnC a x y) {c j : Int} (h0 : 0 ≤ c) (h1 : c < d.ncells) (j0 : 0 ≤ j) (j1 : j < M.neoc c) :
    sc a (x (M.coe (M.eoc c j) 0) + x (M.coe (M.eoc c j) 1)) (y (M'.coe (M'.eoc c j) 0) + y (M'.coe (M'.eoc c j) 1)) :=
  eoc_g hρ hM ok (x := fun e => x (M.coe e 0) + x (M.coe e 1)) (y := fun e => y (M'.coe e 0) + y (M'.coe e 1))
    (fun e e0 e1 => hρ.add (coe_g hρ hM ok h e0 e1 (by omega) (by omega))
      (coe_g hρ hM ok h e0 e1 (by omega) (by omega))) h0 h1 j0 j1

theorem thadv_g (g1 : OnE a x1 y1) (g2 : OnC q x2 y2) (g3 : OnE b x3 y3) :
    OnC (a + q + b - L) (Fn.thadv M x1 x2 x3) (Fn.thadv M' y1 y2 y3) := fun c h0 h1 =>
  cellSum_g hρ hM ok h0 h1 fun j j0 j1 s s' hs =>
    hρ.sub hs (hρ.cast (hρ.mul (hρ.mul (hρ.mul (hρ.mul (hρ.mul (eoc_g hρ hM ok hM.dv h0 h1 j0 j1)
      (hρ.inv (hM.areaCell c h0 h1))) (hM.signC c h0 h1 j j0 j1)) (eoc_g hρ hM ok g3 h0 h1 j0 j1))
      (hρ.mulC (tsum_g hρ hM ok g2 h0 h1 j0 j1) half)) (eoc_g hρ hM ok g1 h0 h1 j0 j1)) (by abel))

theorem thadv_g' (g1 : OnE a x1 y1) (g2 : OnC q x2 y2) (g3 : OnE b x3 y3) :
    OnC (a + q + b - L) (SFn.thadv M x1 x2 x3) (SFn.thadv M' y1 y2 y3) := fun c h0 h1 =>
  cellSum_g hρ hM ok h0 h1 fun j j0 j1 s s' hs =>
    hρ.sub hs (hρ.cast (hρ.mul (hρ.mul (hρ.mul (hρ.mul (hρ.mul (eoc_g hρ hM ok hM.dv h0 h1 j0 j1)
      (hρ.inv (hM.areaCell c h0 h1))) (hM.signC c h0 h1 j j0 j1)) (eoc_g hρ hM ok g3 h0 h1 j0 j1))
      (hρ.Cmul (tsum_g hρ hM ok g2 h0 h1 j0 j1) half)) (eoc_g hρ hM ok g1 h0 h1 j0 j1)) (by abel))

theorem tdiff_g {z z' : R} (hz : sc g z z') (g2 : OnC q x2 y2) (g3 : OnE b x3 y3) :
    OnC (g + q + b - L - L) (Fn.tdiff M z x2 x3) (Fn.tdiff M' z' y2 y3) := fun c h0 h1 =>
  cellSum_g hρ hM ok h0 h1 fun j j0 j1 s s' hs =>
    hρ.add hs (hρ.cast (hρ.mul (hρ.mul (hρ.mul (hρ.mul (hρ.mul (hρ.mul hz (hρ.inv (hM.areaCell c h0 h1)))
      (eoc_g hρ hM ok hM.dv h0 h1 j0 j1)) (hM.signC c h0 h1 j j0 j1)) (eoc_g hρ hM ok g3 h0 h1 j0 j1))
      (eoc_g hρ hM ok hM.sdel2 h0 h1 j0 j1)) (tgrad_g hρ hM ok g2 h0 h1 j0 j1)) (by abel))

theorem tdiff_g' {z z' : R} (hz : sc g z z') (g2 : OnC q x2 y2) (g3 : OnE b x3 y3) :
    OnC (g + q + b - L - L) (SFn.tdiff M z x2 x3) (SFn.tdiff M' z' y2 y3) := fun c h0 h1 =>
  cellSum_g hρ hM ok h0 h1 fun j j0 j1 s s' hs =>
    hρ.add hs (hρ.cast (hρ.mul (hρ.mul (hρ.mul (hρ.mul (hρ.mul (hρ.mul hz (hρ.inv (hM.areaCell c h0 h1)))
      (eoc_g hρ hM ok hM.dv h0 h1 j0 j1)) (hM.signC c h0 h1 j j0 j1)) (eoc_g hρ hM ok hM.sdel2 h0 h1 j0 j1))
      (eoc_g hρ hM ok g3 h0 h1 j0 j1)) (tgrad_g hρ hM ok g2 h0 h1 j0 j1)) (by abel))

theorem tdel2_g (g2 : OnC q x2 y2) (g3 : OnE b x3 y3) : OnC (q + b - L - L) (Fn.tdel2 M x2 x3) (Fn.tdel2 M' y2 y3) :=
  fun c h0 h1 => cellSum_g hρ hM ok h0 h1 fun j j0 j1 s s' hs =>
    hρ.add hs (hρ.cast (hρ.mul (hρ.mul (hρ.mul (hρ.mul (eoc_g hρ hM ok hM.dv h0 h1 j0 j1)
      (hρ.inv (hM.areaCell c h0 h1))) (hM.signC c h0 h1 j j0 j1)) (eoc_g hρ hM ok g3 h0 h1 j0 j1))
      (tgrad_g hρ hM ok g2 h0 h1 j0 j1)) (by abel))

theorem thyper_g {z z' : R} (hz : sc g z z') (g2 : OnC q x2 y2) :
    OnC (g + q - L - L) (Fn.thyper M z x2) (Fn.thyper M' z' y2) := fun c h0 h1 =>
  cellSum_g hρ hM ok h0 h1 fun j j0 j1 s s' hs =>
    hρ.sub hs (hρ.cast (hρ.mul (hρ.mul (hρ.mul (hρ.mul (hρ.mul hz (hρ.inv (hM.areaCell c h0 h1)))
      (eoc_g hρ hM ok hM.dv h0 h1 j0 j1)) (hM.signC c h0 h1 j j0 j1)) (eoc_g hρ hM ok hM.sdel4 h0 h1 j0 j1))
      (tgrad_g hρ hM ok g2 h0 h1 j0 j1)) (by abel))

end

/-! ### Systems -/

/-- Fields times the factors of their kind. -/
structure GFld (sc : G → R → R → Prop) (A B : G) (C : Int → G) (d : Dims) (X Y : Fld R) : Prop where
  h : ∀ c k, 0 ≤ c → c < d.ncells → 0 ≤ k → k < d.nlayers → sc A (X.h c k) (Y.h c k)
  vn : ∀ e k, 0 ≤ e → e < d.nedges → 0 ≤ k → k < d.nlayers → sc B (X.vn e k) (Y.vn e k)
  tr : ∀ l c k, 0 ≤ l → l < d.ntracers → 0 ≤ c → c < d.ncells → 0 ≤ k → k < d.nlayers → sc (C l) (X.tr l c k) (Y.tr l c k)

/-- How the parameters of the second model follow from those of the first.  Coefficients of terms that are switched off
do not matter. -/
structure SwSc (sc : G → R → R → Prop) (L T H : G) (sw sw' : SWModel R) : Prop where
  grav : sc (L + L - T - T - H) sw.prm.grav sw'.prm.grav
  visc2 : sw.en_vdiff = true → sc (L + L - T) sw.prm.visc_del2 sw'.prm.visc_del2
  visc4 : sw.en_vhyper = true → sc (L + L + L + L - T) sw.prm.visc_del4 sw'.prm.visc_del4
  eddy2 : sw.en_tdiff = true → sc (L + L - T) sw.prm.eddy_diff2 sw'.prm.eddy_diff2
  eddy4 : sw.en_thyper = true → sc (L + L + L + L - T) sw.prm.eddy_diff4 sw'.prm.eddy_diff4
  dis_h : sw'.prm.disable_h = sw.prm.disable_h
  dis_vn : sw'.prm.disable_vn = sw.prm.disable_vn
  en_hadv : sw'.en_hadv = sw.en_hadv
  en_pv : sw'.en_pv = sw.en_pv
  en_ke : sw'.en_ke = sw.en_ke
  en_ssh : sw'.en_ssh = sw.en_ssh
  en_vdiff : sw'.en_vdiff = sw.en_vdiff
  en_vhyper : sw'.en_vhyper = sw.en_vhyper
  en_thadv : sw'.en_thadv = sw.en_thadv
  en_tdiff : sw'.en_tdiff = sw.en_tdiff
  en_thyper : sw'.en_thyper = sw.en_thyper

/-- Two systems of the same build that differ by units. -/
structure SysSc (sc : G → R → R → Prop) (L T H : G) (d : Dims) (S S' : Sys R) : Prop where
  law : ScaleLaws sc
  vlpos : 0 < S.vl
  F : (S.F = scalarF ∧ S'.F = scalarF) ∨ (S.F = simdF ∧ S'.F = simdF ∧ S'.vl = S.vl)
  hook : S.H = noHook
  hook' : S'.H = noHook
  mesh : MeshSc sc L d S.M S'.M
  ok : MeshOK d S.M
  f : GOn sc (-T) d.nvertices S.f S'.f
  prm : SwSc sc L T H S.sw S'.sw

section

variable {sc : G → R → R → Prop} {L T H : G} {Q : Int → G} {d : Dims} {S S' : Sys R} (hS : SysSc sc L T H d S S')
include hS

theorem whenAdd_g {b b' : Bool} (hb : b' = b) {g : G} {t x t' x' : R} (ht : sc g t t')
    (hx : b = true → sc g x x') : sc g (if b = true then t + x else t) (if b' = true then t' + x' else t') := by
  subst hb
  split_ifs with h
  · exact hS.law.add ht (hx h)
  · exact ht

theorem whenSub_g {b b' : Bool} (hb : b' = b) {g : G} {t x t' x' : R} (ht : sc g t t')
    (hx : b = true → sc g x x') : sc g (if b = true then t - x else t) (if b' = true then t' - x' else t') := by
  subst hb
  split_ifs with h
  · exact hS.law.sub ht (hx h)
  · exact ht

theorem start_g (mode : AddMode) {g : G} {o o' : R} (h : sc g o o') : sc g (Sys.start mode o) (Sys.start mode o') := by
  unfold Sys.start
  split_ifs
  · exact hS.law.zero g
  · exact h

theorem tend_g (mode : AddMode) {t t' : R} {o s o' s' : Fld R}
    (ho : GFld sc (H - T) (L - T - T) (fun l => Q l - T) d o o') (hs : GFld sc H (L - T) Q d s s') :
    GFld sc (H - T) (L - T - T) (fun l => Q l - T) d (S.tend mode t o s) (S'.tend mode t' o' s') := by
  have hρ := hS.law
  have hM := hS.mesh
  have ok := hS.ok
  have hp := hS.prm
  have hh : ∀ k, 0 ≤ k → k < d.nlayers → GOn sc H d.ncells (Sys.hk s k) (Sys.hk s' k) :=
    fun k k0 k1 c c0 c1 => hs.h c k c0 c1 k0 k1
  have hv : ∀ k, 0 ≤ k → k < d.nlayers → GOn sc (L - T) d.nedges (Sys.vk s k) (Sys.vk s' k) :=
    fun k k0 k1 c c0 c1 => hs.vn c k c0 c1 k0 k1
  have hfl : ∀ k, 0 ≤ k → k < d.nlayers → GOn sc H d.nedges (S.flux s k) (S'.flux s' k) := by
    intro k k0 k1
    unfold Sys.flux
    rcases hS.F with ⟨e, e'⟩ | ⟨e, e', -⟩ <;> (rw [e, e']; exact hmean_g hρ hM ok (hh k k0 k1))
  have hdiv : ∀ k, 0 ≤ k → k < d.nlayers → GOn sc (-T) d.ncells (S.divC s k) (S'.divC s' k) := by
    intro k k0 k1
    unfold Sys.divC
    rcases hS.F with ⟨e, e'⟩ | ⟨e, e', -⟩ <;> (rw [e, e']; exact (div_g hρ hM ok (hv k k0 k1)).cast (by abel))
  have hrv : ∀ k, 0 ≤ k → k < d.nlayers → GOn sc (-T) d.nvertices (S.rv s k) (S'.rv s' k) := by
    intro k k0 k1
    unfold Sys.rv
    rcases hS.F with ⟨e, e'⟩ | ⟨e, e', -⟩ <;> (rw [e, e']; exact (rvort_g hρ hM ok (hv k k0 k1)).cast (by abel))
  have hd2 : ∀ k, 0 ≤ k → k < d.nlayers → GOn sc (-T - L) d.nedges (S.d2E s k) (S'.d2E s' k) := by
    intro k k0 k1
    unfold Sys.d2E
    rcases hS.F with ⟨e, e'⟩ | ⟨e, e', -⟩ <;> (rw [e, e']; exact del2_g hρ hM ok (hdiv k k0 k1) (hrv k k0 k1))
  have hd2C : ∀ k, 0 ≤ k → k < d.nlayers → GOn sc (-T - L - L) d.ncells (S.d2C s k) (S'.d2C s' k) := by
    intro k k0 k1
    unfold Sys.d2C
    rcases hS.F with ⟨e, e'⟩ | ⟨e, e', -⟩ <;> (rw [e, e']; exact del2div_g hρ hM ok (hd2 k k0 k1))
  have hd2V : ∀ k, 0 ≤ k → k < d.nlayers → GOn sc (-T - L - L) d.nvertices (S.d2V s k) (S'.d2V s' k) := by
    intro k k0 k1
    unfold Sys.d2V
    rcases hS.F with ⟨e, e'⟩ | ⟨e, e', ev⟩
    · rw [e, e']
      exact rvort_g hρ hM ok (hd2 k k0 k1)
    · rw [e, e', ev]
      have q0 : 0 ≤ k / S.vl * S.vl := mul_nonneg (Int.ediv_nonneg k0 hS.vlpos.le) hS.vlpos.le
      have q1 : k / S.vl * S.vl ≤ k := Int.ediv_mul_le k hS.vlpos.ne'
      exact rvort_g hρ hM ok (hd2 _ q0 (by omega))
  constructor
  · intro c k c0 c1 k0 k1
    simp only [Sys.tend, hS.hook, hS.hook', noHook, hp.dis_h]
    split_ifs
    · exact ho.h c k c0 c1 k0 k1
    · unfold Sys.termsH
      refine whenAdd_g hS hp.en_hadv (start_g hS mode (ho.h c k c0 c1 k0 k1)) fun _ => ?_
      have := hadv_g hρ hM ok (hv k k0 k1) (hfl k k0 k1) c c0 c1
      rcases hS.F with ⟨e, e'⟩ | ⟨e, e', -⟩ <;> (rw [e, e']; exact hρ.cast this (by abel))
  · intro e k e0 e1 k0 k1
    simp only [Sys.tend, hS.hook, hS.hook', noHook, hp.dis_vn]
    by_cases hdis : S.sw.prm.disable_vn = true
    · rw [if_pos hdis, if_pos hdis]
      exact ho.vn e k e0 e1 k0 k1
    rw [if_neg hdis, if_neg hdis]
    unfold Sys.termsVn
    refine whenSub_g hS hp.en_vhyper (whenAdd_g hS hp.en_vdiff (whenSub_g hS hp.en_ssh
      (whenSub_g hS hp.en_ke (whenAdd_g hS hp.en_pv
        (start_g hS mode (ho.vn e k e0 e1 k0 k1)) fun _ => ?_) fun _ => ?_) fun _ => ?_)
        fun on => ?_) fun on => ?_
    · unfold Sys.nrvE Sys.npvE Sys.nrvV Sys.npvV
      have n2 := (vedge_g hρ hM ok (npv_g hρ hM ok (hh k k0 k1) hS.f)).cast (g' := -T - H) (by abel)
      rcases hS.F with ⟨e, e'⟩ | ⟨e, e', -⟩ <;> rw [e, e']
      · have n1 := (vedge_g hρ hM ok (nrv_g hρ hM ok (hh k k0 k1) (hv k k0 k1))).cast (g' := -T - H) (by abel)
        exact hρ.cast (pv_g hρ hM ok n1 n2 (hfl k k0 k1) (hv k k0 k1) _ e0 e1) (by abel)
      · have n1 := (vedge_g hρ hM ok (nrv_g' hρ hM ok (hh k k0 k1) (hv k k0 k1))).cast (g' := -T - H) (by abel)
        exact hρ.cast (pv_g' hρ hM ok n1 n2 (hfl k k0 k1) (hv k k0 k1) _ e0 e1) (by abel)
    · unfold Sys.keC
      rcases hS.F with ⟨e, e'⟩ | ⟨e, e', -⟩ <;>
        (rw [e, e']; exact hρ.cast (keG_g hρ hM ok (ke_g hρ hM ok (hv k k0 k1)) _ e0 e1) (by abel))
    · rcases hS.F with ⟨e, e'⟩ | ⟨e, e', -⟩ <;>
        (rw [e, e']; exact hρ.cast (sshG_g hρ hM ok hp.grav (hh k k0 k1) _ e0 e1) (by abel))
    · rcases hS.F with ⟨e, e'⟩ | ⟨e, e', -⟩ <;> rw [e, e']
      · exact hρ.cast (vdiff_g hρ hM ok (hp.visc2 on) k0 k1 (hdiv k k0 k1) (hrv k k0 k1) _ e0 e1) (by abel)
      · exact hρ.cast (vdiff_g' hρ hM ok (hp.visc2 on) k0 k1 (hdiv k k0 k1) (hrv k k0 k1) _ e0 e1) (by abel)
    · rcases hS.F with ⟨e, e'⟩ | ⟨e, e', -⟩ <;>
        (rw [e, e']; exact hρ.cast (vhyper_g hρ hM ok (hp.visc4 on) k0 k1 (hd2C k k0 k1) (hd2V k k0 k1) _ e0 e1) (by abel))
  · intro l c k l0 l1 c0 c1 k0 k1
    have hn : GOn sc (Q l - H) d.ncells (S.ntrC s l k) (S'.ntrC s' l k) := by
      unfold Sys.ntrC
      have := ntr_g hρ (fun c c0 c1 => hs.tr l c k l0 l1 c0 c1 k0 k1) (hh k k0 k1)
      rcases hS.F with ⟨e, e'⟩ | ⟨e, e', -⟩ <;> (rw [e, e']; exact this)
    have ht2 : GOn sc (Q l - L - L) d.ncells (S.t2C s l k) (S'.t2C s' l k) := by
      unfold Sys.t2C
      have := (tdel2_g hρ hM ok hn (hfl k k0 k1)).cast (g' := Q l - L - L) (by abel)
      rcases hS.F with ⟨e, e'⟩ | ⟨e, e', -⟩ <;> (rw [e, e']; exact this)
    unfold Sys.tend Sys.termsTr
    refine whenAdd_g hS hp.en_thyper (whenAdd_g hS hp.en_tdiff (whenAdd_g hS hp.en_thadv
      (start_g hS mode (ho.tr l c k l0 l1 c0 c1 k0 k1)) fun _ => ?_) fun on => ?_) fun on => ?_
    · rcases hS.F with ⟨e, e'⟩ | ⟨e, e', -⟩ <;> rw [e, e']
      · exact hρ.cast (thadv_g hρ hM ok (hv k k0 k1) hn (hfl k k0 k1) _ c0 c1) (by abel)
      · exact hρ.cast (thadv_g' hρ hM ok (hv k k0 k1) hn (hfl k k0 k1) _ c0 c1) (by abel)
    · rcases hS.F with ⟨e, e'⟩ | ⟨e, e', -⟩ <;> rw [e, e']
      · exact hρ.cast (tdiff_g hρ hM ok (hp.eddy2 on) hn (hfl k k0 k1) _ c0 c1) (by abel)
      · exact hρ.cast (tdiff_g' hρ hM ok (hp.eddy2 on) hn (hfl k k0 k1) _ c0 c1) (by abel)
    · rcases hS.F with ⟨e, e'⟩ | ⟨e, e', -⟩ <;>
        (rw [e, e']; exact hρ.cast (thyper_g hρ hM ok (hp.eddy4 on) ht2 _ c0 c1) (by abel))

theorem axpy_g {A B : G} {C : Int → G} {a a' : R} (ha : sc T a a') {x y x' y' : Fld R} (hx : GFld sc A B C d x x')
    (hy : GFld sc (A - T) (B - T) (fun l => C l - T) d y y') : GFld sc A B C d (x.axpy a y) (x'.axpy a' y') :=
  ⟨fun c k h0 h1 h2 h3 => hS.law.add (hx.h c k h0 h1 h2 h3) (hS.law.cast (hS.law.mul ha (hy.h c k h0 h1 h2 h3)) (by abel)),
   fun c k h0 h1 h2 h3 => hS.law.add (hx.vn c k h0 h1 h2 h3) (hS.law.cast (hS.law.mul ha (hy.vn c k h0 h1 h2 h3)) (by abel)),
   fun l c k l0 l1 h0 h1 h2 h3 => hS.law.add (hx.tr l c k l0 l1 h0 h1 h2 h3)
     (hS.law.cast (hS.law.mul ha (hy.tr l c k l0 l1 h0 h1 h2 h3)) (by abel))⟩

theorem scale_g {A B : G} {C : Int → G} (a : R) {x x' : Fld R} (hx : GFld sc A B C d x x') :
    GFld sc A B C d (x.map fun v => v * a) (x'.map fun v => v * a) :=
  ⟨fun c k h0 h1 h2 h3 => hS.law.mulC (hx.h c k h0 h1 h2 h3) a, fun c k h0 h1 h2 h3 => hS.law.mulC (hx.vn c k h0 h1 h2 h3) a,
   fun l c k l0 l1 h0 h1 h2 h3 => hS.law.mulC (hx.tr l c k l0 l1 h0 h1 h2 h3) a⟩

theorem zeroFld_g (A B : G) (C : Int → G) : GFld sc A B C d (zeroFld : Fld R) zeroFld :=
  ⟨fun _ _ _ _ _ _ => hS.law.zero _, fun _ _ _ _ _ _ => hS.law.zero _, fun _ _ _ _ _ _ _ _ _ => hS.law.zero _⟩

/-- tendency and state -/
def GPair (sc : G → R → R → Prop) (L T H : G) (Q : Int → G) (d : Dims) (q q' : Fld R × Fld R) : Prop :=
  GFld sc (H - T) (L - T - T) (fun l => Q l - T) d q.1 q'.1 ∧ GFld sc H (L - T) Q d q.2 q'.2

theorem step_g (stp : Stepper) {t t' dt dt' : R} (hd : sc T dt dt') {q q' : Fld R × Fld R} (h : GPair sc L T H Q d q q') :
    GPair sc L T H Q d (S.step t dt q stp) (S'.step t' dt' q' stp) := by
  cases stp with
  | lsrk n =>
    simp only [Sys.step, Sys.lsrkStep]
    generalize List.range n = l
    induction l generalizing q q' with
    | nil => exact h
    | cons i l ih =>
      refine ih (q := Sys.lsrkStage _ (lsrkCoef n) t dt i q) (q' := Sys.lsrkStage _ (lsrkCoef n) t' dt' i q') ?_
      have := tend_g hS .increment (t := t + (lsrkCoef n).c i * dt) (t' := t' + (lsrkCoef n).c i * dt')
        (scale_g hS ((lsrkCoef n).a i) h.1) h.2
      exact ⟨this, axpy_g hS (hS.law.mulC hd _) h.2 this⟩
  | rk4 =>
    simp only [Sys.step, Sys.rk4Step]
    have h0 := h
    have key : ∀ (l : List Nat) {r r' : Fld R × Fld R}, GPair sc L T H Q d r r' → GPair sc L T H Q d
        (l.foldl (fun r i => S.rk4Stage rk4Coef t dt q.2 i r) r)
        (l.foldl (fun r i => S'.rk4Stage rk4Coef t' dt' q'.2 i r) r') := by
      intro l
      induction l with
      | nil => exact fun h => h
      | cons i l ih =>
        intro r r' h
        refine ih (r := Sys.rk4Stage _ rk4Coef t dt q.2 i r) (r' := Sys.rk4Stage _ rk4Coef t' dt' q'.2 i r') ?_
        refine ⟨?_, axpy_g hS (hS.law.mulC hd _) h.2 h.1⟩
        simp only [Sys.rk4Stage]
        split_ifs
        · exact tend_g hS .replace h.1 (axpy_g hS (hS.law.mulC hd _) h0.2 h.1)
        · exact h.1
    exact key _ ⟨tend_g hS .replace h.1 h.2, h.2⟩

theorem run_g (stp : Stepper) {sched sched' : List (R × R)} (hd : List.Forall₂ (fun x y => sc T x.2 y.2) sched sched')
    {q q' : Fld R × Fld R} (h : GPair sc L T H Q d q q') :
    GPair sc L T H Q d (S.run stp sched q) (S'.run stp sched' q') := by
  unfold Sys.run
  induction hd generalizing q q' with
  | nil => exact h
  | cons hxy _ ih => exact ih (step_g hS stp hxy h)

end

end Refine
end Omega
