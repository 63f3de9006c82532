import Verif.Refine.Ready

/-!
# Regions of two meshes

`RegionRel` relates rows of two meshes in levels: a cell of level `n + 1` has its sides and their
neighbourhood related at level `n`.  Fields that agree on a level have tendencies that agree two levels
further in.
-/

set_option linter.unusedVariables false
set_option linter.unusedSectionVars false

namespace Omega
namespace Refine

open Model

variable {R : Type} [Scalar R]

/-- Related cells `C n`, edges `E n` and vertices `V n` of two meshes, with equal values of the tables. -/
structure RegionRel (K : Int) (C E V : Nat → Int → Int → Prop) (M M' : Mesh R) : Prop where
  cellUp : ∀ {n i i'}, C (n + 1) i i' → C n i i'
  edgeUp : ∀ {n i i'}, E (n + 1) i i' → E n i i'
  neoc : ∀ {n c c'}, C n c c' → M.neoc c = M'.neoc c'
  eoc : ∀ {n c c'}, C n c c' → ∀ j, 0 ≤ j → j < M'.neoc c' → E n (M.eoc c j) (M'.eoc c' j)
  coe : ∀ {n e e'}, E (n + 1) e e' → ∀ s, s = 0 ∨ s = 1 → C n (M.coe e s) (M'.coe e' s)
  voe : ∀ {n e e'}, E n e e' → ∀ s, s = 0 ∨ s = 1 → V n (M.voe e s) (M'.voe e' s)
  eov : ∀ {n v v'}, V (n + 1) v v' → ∀ s, 0 ≤ s → s < 3 → E n (M.eov v s) (M'.eov v' s)
  cov : ∀ {n v v'}, V (n + 1) v v' → ∀ s, 0 ≤ s → s < 3 → C n (M.cov v s) (M'.cov v' s)
  neoe : ∀ {n e e'}, E n e e' → M.neoe e = M'.neoe e'
  eoe : ∀ {n e e'}, E (n + 1) e e' → ∀ j, 0 ≤ j → j < M'.neoe e' → E n (M.eoe e j) (M'.eoe e' j)
  areaCell : ∀ {n c c'}, C n c c' → M.areaCell c = M'.areaCell c'
  areaTri : ∀ {n v v'}, V n v v' → M.areaTri v = M'.areaTri v'
  dv : ∀ {n e e'}, E n e e' → M.dv e = M'.dv e'
  dc : ∀ {n e e'}, E n e e' → M.dc e = M'.dc e'
  signC : ∀ {n c c'}, C n c c' → ∀ j, 0 ≤ j → j < M'.neoc c' → M.signC c j = M'.signC c' j
  signV : ∀ {n v v'}, V n v v' → ∀ s, 0 ≤ s → s < 3 → M.signV v s = M'.signV v' s
  kite : ∀ {n v v'}, V n v v' → ∀ s, 0 ≤ s → s < 3 → M.kite v s = M'.kite v' s
  woe : ∀ {n e e'}, E n e e' → ∀ j, 0 ≤ j → j < M'.neoe e' → M.woe e j = M'.woe e' j
  mask : ∀ {n e e'}, E n e e' → ∀ k, 0 ≤ k → k < K → M.mask e k = M'.mask e' k
  sdel2 : ∀ {n e e'}, E n e e' → M.sdel2 e = M'.sdel2 e'
  sdel4 : ∀ {n e e'}, E n e e' → M.sdel4 e = M'.sdel4 e'

/-- Equal values at related rows. -/
def Same (P : Int → Int → Prop) (x y : Int → R) : Prop := ∀ {i i'}, P i i' → x i = y i'

section

variable {K : Int} {C E V : Nat → Int → Int → Prop} {M M' : Mesh R} (L : RegionRel K C E V M M') {n : Nat}
include L

theorem Same.cell {x y : Int → R} (h : Same (C n) x y) : Same (C (n + 1)) x y := fun hi => h (L.cellUp hi)
theorem Same.edge {x y : Int → R} (h : Same (E n) x y) : Same (E (n + 1)) x y := fun hi => h (L.edgeUp hi)

/-- a sum over the sides of a cell -/
theorem side_sum {c c' : Int} (hc : C n c c') {f f' : Int → R → R}
    (h : ∀ j, 0 ≤ j → j < M'.neoc c' → E n (M.eoc c j) (M'.eoc c' j) → ∀ s, f j s = f' j s) :
    foldI (M.neoc c) (lit 0) f = foldI (M'.neoc c') (lit 0) f' := by
  rw [L.neoc hc]
  exact foldI_congr _ _ _ _ fun j j0 j1 s => h j j0 j1 (L.eoc hc j j0 j1) s

theorem same_ke {x y : Int → R} (h : Same (E n) x y) : Same (C n) (Fn.ke M x) (Fn.ke M' y) := fun hc =>
  side_sum L hc fun j j0 j1 he s => by rw [L.areaCell hc, L.dv he, L.dc he, h he]

theorem same_div {x y : Int → R} (h : Same (E n) x y) : Same (C n) (Fn.div M x) (Fn.div M' y) := fun hc =>
  side_sum L hc fun j j0 j1 he s => by rw [L.areaCell hc, L.dv he, L.signC hc j j0 j1, h he]

theorem same_hmean {x y : Int → R} (h : Same (C n) x y) :
    Same (E (n + 1)) (Fn.hmean M x) (Fn.hmean M' y) := fun he => by
  unfold Fn.hmean
  rw [h (L.coe he 0 (.inl rfl)), h (L.coe he 1 (.inr rfl))]

omit L in
theorem same_ntr {P : Int → Int → Prop} {x x' y y' : Int → R} (h : Same P x y) (h' : Same P x' y') :
    Same P (Fn.ntr x x') (Fn.ntr y y') := fun hc => by
  unfold Fn.ntr
  rw [h hc, h' hc]

theorem same_rvort {x y : Int → R} (h : Same (E n) x y) :
    Same (V (n + 1)) (Fn.rvort M x) (Fn.rvort M' y) := fun hv =>
  foldI_congr _ _ _ _ fun j j0 j1 s => by
    have he := L.eov hv j j0 j1
    rw [L.dc he, L.areaTri hv, L.signV hv j j0 j1, h he]

theorem same_hvert {x y : Int → R} (h : Same (C n) x y) :
    Same (V (n + 1)) (Fn.hvert M x) (Fn.hvert M' y) := fun hv =>
  foldI_congr _ _ _ _ fun j j0 j1 s => by
    rw [L.kite hv j j0 j1, L.areaTri hv, h (L.cov hv j j0 j1)]

theorem same_nrv {x x' y y' : Int → R} (h : Same (C n) x y) (h' : Same (E n) x' y') :
    Same (V (n + 1)) (Fn.nrv M x x') (Fn.nrv M' y y') := fun hv => by
  unfold Fn.nrv
  rw [same_hvert L h hv, same_rvort L h' hv]

theorem same_npv {x x' y y' : Int → R} (h : Same (C n) x y) (h' : Same (V (n + 1)) x' y') :
    Same (V (n + 1)) (Fn.npv M x x') (Fn.npv M' y y') := fun hv => by
  unfold Fn.npv
  rw [same_hvert L h hv, h' hv]

theorem same_vedge {x y : Int → R} (h : Same (V n) x y) :
    Same (E n) (Fn.vedge M x) (Fn.vedge M' y) := fun he => by
  unfold Fn.vedge
  rw [h (L.voe he 0 (.inl rfl)), h (L.voe he 1 (.inr rfl))]

theorem same_hadv {x x' y y' : Int → R} (h : Same (E n) x y) (h' : Same (E n) x' y') :
    Same (C n) (Fn.hadv M x x') (Fn.hadv M' y y') := fun hc =>
  side_sum L hc fun j j0 j1 he s => by rw [L.areaCell hc, L.dv he, L.signC hc j j0 j1, h he, h' he]

theorem same_pv {x1 x2 x3 x4 y1 y2 y3 y4 : Int → R} (g1 : Same (E n) x1 y1) (g2 : Same (E n) x2 y2)
    (g3 : Same (E n) x3 y3) (g4 : Same (E n) x4 y4) :
    Same (E (n + 1)) (Fn.pv M x1 x2 x3 x4) (Fn.pv M' y1 y2 y3 y4) := fun {e e'} h => by
  unfold Fn.pv
  rw [L.neoe h]
  refine foldI_congr _ _ _ _ fun j j0 j1 s => ?_
  have he := L.eoe h j j0 j1
  rw [L.woe h j j0 j1, g3 he, g4 he, g1 he, g2 he, g1 (L.edgeUp h), g2 (L.edgeUp h)]

theorem same_keG {x y : Int → R} (h : Same (C n) x y) :
    Same (E (n + 1)) (Fn.keG M x) (Fn.keG M' y) := fun he => by
  unfold Fn.keG
  rw [h (L.coe he 0 (.inl rfl)), h (L.coe he 1 (.inr rfl)), L.dc he]

theorem same_sshG (g : R) {x y : Int → R} (h : Same (C n) x y) :
    Same (E (n + 1)) (Fn.sshG M g x) (Fn.sshG M' g y) := fun he => by
  unfold Fn.sshG
  rw [h (L.coe he 0 (.inl rfl)), h (L.coe he 1 (.inr rfl)), L.dc he]

theorem same_vdiff (g : R) {k : Int} (k0 : 0 ≤ k) (k1 : k < K) {x x' y y' : Int → R}
    (h : Same (C n) x y) (h' : Same (V (n + 1)) x' y') :
    Same (E (n + 1)) (Fn.vdiff M g k x x') (Fn.vdiff M' g k y y') := fun he => by
  unfold Fn.vdiff
  rw [h (L.coe he 0 (.inl rfl)), h (L.coe he 1 (.inr rfl)), L.dc he, L.dv he, L.mask he k k0 k1,
    L.sdel2 he, h' (L.voe he 0 (.inl rfl)), h' (L.voe he 1 (.inr rfl))]

theorem same_vhyper (g : R) {k : Int} (k0 : 0 ≤ k) (k1 : k < K) {x x' y y' : Int → R}
    (h : Same (C n) x y) (h' : Same (V (n + 1)) x' y') :
    Same (E (n + 1)) (Fn.vhyper M g k x x') (Fn.vhyper M' g k y y') := fun he => by
  unfold Fn.vhyper
  rw [h (L.coe he 0 (.inl rfl)), h (L.coe he 1 (.inr rfl)), L.dc he, L.dv he, L.mask he k k0 k1,
    L.sdel4 he, h' (L.voe he 0 (.inl rfl)), h' (L.voe he 1 (.inr rfl))]

theorem same_del2 {x x' y y' : Int → R} (h : Same (C n) x y) (h' : Same (V (n + 1)) x' y') :
    Same (E (n + 1)) (Fn.del2 M x x') (Fn.del2 M' y y') := fun he => by
  unfold Fn.del2
  rw [h (L.coe he 0 (.inl rfl)), h (L.coe he 1 (.inr rfl)), L.dc he, L.dv he,
    h' (L.voe he 0 (.inl rfl)), h' (L.voe he 1 (.inr rfl))]

theorem same_del2div {x y : Int → R} (h : Same (E n) x y) :
    Same (C n) (Fn.del2div M x) (Fn.del2div M' y) := fun hc =>
  side_sum L hc fun j j0 j1 he s => by rw [L.areaCell hc, L.dv he, L.signC hc j j0 j1, h he]

theorem same_thadv {x1 x2 x3 y1 y2 y3 : Int → R} (g1 : Same (E (n + 1)) x1 y1) (g2 : Same (C n) x2 y2)
    (g3 : Same (E (n + 1)) x3 y3) :
    Same (C (n + 1)) (Fn.thadv M x1 x2 x3) (Fn.thadv M' y1 y2 y3) := fun hc =>
  side_sum L hc fun j j0 j1 he s => by
    rw [L.areaCell hc, L.dv he, L.signC hc j j0 j1, g1 he, g3 he, g2 (L.coe he 0 (.inl rfl)),
      g2 (L.coe he 1 (.inr rfl))]

theorem same_tdiff (g : R) {x2 x3 y2 y3 : Int → R} (g2 : Same (C n) x2 y2)
    (g3 : Same (E (n + 1)) x3 y3) :
    Same (C (n + 1)) (Fn.tdiff M g x2 x3) (Fn.tdiff M' g y2 y3) := fun hc =>
  side_sum L hc fun j j0 j1 he s => by
    rw [L.areaCell hc, L.dv he, L.dc he, L.sdel2 he, L.signC hc j j0 j1, g3 he,
      g2 (L.coe he 0 (.inl rfl)), g2 (L.coe he 1 (.inr rfl))]

theorem same_tdel2 {x2 x3 y2 y3 : Int → R} (g2 : Same (C n) x2 y2) (g3 : Same (E (n + 1)) x3 y3) :
    Same (C (n + 1)) (Fn.tdel2 M x2 x3) (Fn.tdel2 M' y2 y3) := fun hc =>
  side_sum L hc fun j j0 j1 he s => by
    rw [L.areaCell hc, L.dv he, L.dc he, L.signC hc j j0 j1, g3 he,
      g2 (L.coe he 0 (.inl rfl)), g2 (L.coe he 1 (.inr rfl))]

theorem same_thyper (g : R) {x2 y2 : Int → R} (g2 : Same (C n) x2 y2) :
    Same (C (n + 1)) (Fn.thyper M g x2) (Fn.thyper M' g y2) := fun hc =>
  side_sum L hc fun j j0 j1 he s => by
    rw [L.areaCell hc, L.dv he, L.dc he, L.sdel4 he, L.signC hc j j0 j1,
      g2 (L.coe he 0 (.inl rfl)), g2 (L.coe he 1 (.inr rfl))]

end

/-! ### Systems -/

/-- Two fields agree on level `n`. -/
structure AgreeOn (K N : Int) (C E : Nat → Int → Int → Prop) (n : Nat) (X Y : Fld R) : Prop where
  h : ∀ k, 0 ≤ k → k < K → Same (C n) (Sys.hk X k) (Sys.hk Y k)
  vn : ∀ k, 0 ≤ k → k < K → Same (E n) (Sys.vk X k) (Sys.vk Y k)
  tr : ∀ l k, 0 ≤ l → l < N → 0 ≤ k → k < K → Same (C n) (Sys.tk X l k) (Sys.tk Y l k)

/-- Two systems of the default build with the same terms on related regions. -/
structure SameSys (K : Int) (C E V : Nat → Int → Int → Prop) (S S' : Sys R) : Prop where
  F : S.F = scalarF
  F' : S'.F = scalarF
  L : RegionRel K C E V S.M S'.M
  f : ∀ n, Same (V (n + 1)) S.f S'.f
  sw : S.sw = S'.sw
  H : S.H = noHook
  H' : S'.H = noHook

section

variable {K N : Int} {C E V : Nat → Int → Int → Prop} {S S' : Sys R} (W : SameSys K C E V S S') {n : Nat}
include W

theorem AgreeOn.up {X Y : Fld R} (h : AgreeOn K N C E n X Y) : AgreeOn K N C E (n + 1) X Y :=
  ⟨fun k k0 k1 => Same.cell W.L (h.h k k0 k1), fun k k0 k1 => Same.edge W.L (h.vn k k0 k1),
    fun l k l0 l1 k0 k1 => Same.cell W.L (h.tr l k l0 l1 k0 k1)⟩

theorem AgreeOn.lift {X Y : Fld R} (h : AgreeOn K N C E n X Y) (j : Nat) :
    AgreeOn K N C E (n + j) X Y := by
  induction j with
  | zero => exact h
  | succ j ih => exact ih.up W

omit W in
theorem AgreeOn.axpy {a : R} {x y x' y' : Fld R} (hx : AgreeOn K N C E n x x')
    (hy : AgreeOn K N C E n y y') : AgreeOn K N C E n (x.axpy a y) (x'.axpy a y') :=
  ⟨fun k k0 k1 _ _ hi => congrArg₂ (fun u v => u + a * v) (hx.h k k0 k1 hi) (hy.h k k0 k1 hi),
   fun k k0 k1 _ _ hi => congrArg₂ (fun u v => u + a * v) (hx.vn k k0 k1 hi) (hy.vn k k0 k1 hi),
   fun l k l0 l1 k0 k1 _ _ hi => congrArg₂ (fun u v => u + a * v) (hx.tr l k l0 l1 k0 k1 hi)
    (hy.tr l k l0 l1 k0 k1 hi)⟩

omit W in
theorem AgreeOn.map (g : R → R) {x x' : Fld R} (hx : AgreeOn K N C E n x x') :
    AgreeOn K N C E n (x.map g) (x'.map g) :=
  ⟨fun k k0 k1 _ _ hi => congrArg g (hx.h k k0 k1 hi), fun k k0 k1 _ _ hi => congrArg g (hx.vn k k0 k1 hi),
   fun l k l0 l1 k0 k1 _ _ hi => congrArg g (hx.tr l k l0 l1 k0 k1 hi)⟩

/-- Tendencies agree two levels further in. -/
theorem agree_tend (mode : AddMode) (t : R) {o o' s s' : Fld R} (ho : AgreeOn K N C E (n + 2) o o')
    (hs : AgreeOn K N C E n s s') :
    AgreeOn K N C E (n + 2) (S.tend mode t o s) (S'.tend mode t o' s') := by
  have L := W.L
  have eF := W.F; have eF' := W.F'; have eS := W.sw; have eH := W.H; have eH' := W.H'
  have hfl : ∀ k, 0 ≤ k → k < K → Same (E (n + 1)) (S.flux s k) (S'.flux s' k) := by
    intro k k0 k1
    unfold Sys.flux
    rw [eF, eF']
    exact same_hmean L (hs.h k k0 k1)
  constructor
  · intro k k0 k1 c c' hc
    have key := same_hadv L (Same.edge L (hs.vn k k0 k1)) (hfl k k0 k1) (L.cellUp hc)
    have ho := ho.h k k0 k1 hc
    simp only [Sys.hk, Sys.tend, Sys.termsH, eF, eF', eS, eH, eH', noHook] at ho key ⊢
    simp only [scalarF] at key ⊢
    rw [ho, key]
  · intro k k0 k1 e e' he
    have hdiv : Same (C n) (S.divC s k) (S'.divC s' k) := by
      unfold Sys.divC
      rw [eF, eF']
      exact same_div L (hs.vn k k0 k1)
    have hrv : Same (V (n + 1)) (S.rv s k) (S'.rv s' k) := by
      unfold Sys.rv
      rw [eF, eF']
      exact same_rvort L (hs.vn k k0 k1)
    have hd2 : Same (E (n + 1)) (S.d2E s k) (S'.d2E s' k) := by
      unfold Sys.d2E
      rw [eF, eF']
      exact same_del2 L hdiv hrv
    have hdC : Same (C (n + 1)) (S.d2C s k) (S'.d2C s' k) := by
      unfold Sys.d2C
      rw [eF, eF']
      exact same_del2div L hd2
    have hdV : Same (V (n + 2)) (S.d2V s k) (S'.d2V s' k) := by
      unfold Sys.d2V
      rw [eF, eF']
      exact same_rvort L hd2
    have hn1 : Same (E (n + 1)) (S.nrvE s k) (S'.nrvE s' k) := by
      unfold Sys.nrvE Sys.nrvV
      rw [eF, eF']
      exact same_vedge L (same_nrv L (hs.h k k0 k1) (hs.vn k k0 k1))
    have hn2 : Same (E (n + 1)) (S.npvE s k) (S'.npvE s' k) := by
      unfold Sys.npvE Sys.npvV
      rw [eF, eF']
      exact same_vedge L (same_npv L (hs.h k k0 k1) (W.f n))
    have hke : Same (C n) (S.keC s k) (S'.keC s' k) := by
      unfold Sys.keC
      rw [eF, eF']
      exact same_ke L (hs.vn k k0 k1)
    have a1 := same_pv L hn1 hn2 (hfl k k0 k1) (Same.edge L (hs.vn k k0 k1)) he
    have a2 := same_keG L hke (L.edgeUp he)
    have a3 := same_sshG L S'.sw.prm.grav (hs.h k k0 k1) (L.edgeUp he)
    have a4 := same_vdiff L S'.sw.prm.visc_del2 k0 k1 hdiv hrv (L.edgeUp he)
    have a5 := same_vhyper L S'.sw.prm.visc_del4 k0 k1 hdC hdV he
    have ho := ho.vn k k0 k1 he
    show S.H.vn t e k _ = S'.H.vn t e' k _
    unfold Sys.termsVn
    simp only [Sys.vk] at ho
    simp only [eF, eF', eS, eH, eH', noHook, scalarF, ho, a1, a2, a3, a4, a5]
  · intro l k l0 l1 k0 k1 c c' hc
    have hn : Same (C n) (S.ntrC s l k) (S'.ntrC s' l k) := by
      unfold Sys.ntrC
      rw [eF, eF']
      exact fun hi => same_ntr (P := C n) (hs.tr l k l0 l1 k0 k1) (hs.h k k0 k1) hi
    have h2 : Same (C (n + 1)) (S.t2C s l k) (S'.t2C s' l k) := by
      unfold Sys.t2C
      rw [eF, eF']
      exact same_tdel2 L hn (hfl k k0 k1)
    have a1 := same_thadv L (Same.edge L (hs.vn k k0 k1)) hn (hfl k k0 k1) (L.cellUp hc)
    have a2 := same_tdiff L S'.sw.prm.eddy_diff2 hn (hfl k k0 k1) (L.cellUp hc)
    have a3 := same_thyper L S'.sw.prm.eddy_diff4 h2 hc
    have ho := ho.tr l k l0 l1 k0 k1 hc
    show S.termsTr s mode _ l c k = S'.termsTr s' mode _ l c' k
    unfold Sys.termsTr
    simp only [Sys.tk] at ho
    simp only [eF, eF', eS, scalarF, ho, a1, a2, a3]

/-- tendency evaluations of one step -/
def _root_.Omega.Model.Stepper.stages : Stepper → Nat
  | .lsrk n => n
  | .rk4 => 4

theorem agree_lsrk (Cf : Coef R) (t dt : R) (J : List Nat) {p q : Fld R × Fld R}
    (h : AgreeOn K N C E n p.1 q.1 ∧ AgreeOn K N C E n p.2 q.2) :
    AgreeOn K N C E (n + 2 * J.length) (J.foldl (fun p i => S.lsrkStage Cf t dt i p) p).1
      (J.foldl (fun p i => S'.lsrkStage Cf t dt i p) q).1 ∧
    AgreeOn K N C E (n + 2 * J.length) (J.foldl (fun p i => S.lsrkStage Cf t dt i p) p).2
      (J.foldl (fun p i => S'.lsrkStage Cf t dt i p) q).2 := by
  induction J generalizing n p q with
  | nil => exact h
  | cons i J ih =>
    have a := agree_tend W .increment (t + Cf.c i * dt) ((h.1.map (fun v => v * Cf.a i)).lift W 2) h.2
    have := ih (n := n + 2) (p := S.lsrkStage Cf t dt i p) (q := S'.lsrkStage Cf t dt i q)
      ⟨a, (h.2.lift W 2).axpy a⟩
    rw [show n + 2 + 2 * J.length = n + 2 * (i :: J).length by simp; omega] at this
    exact this

theorem agree_rk4 (Cf : Coef R) (t dt : R) {o o' : Fld R} (ho : AgreeOn K N C E n o o')
    {p q : Fld R × Fld R} (h : AgreeOn K N C E (n + 2) p.1 q.1 ∧ AgreeOn K N C E n p.2 q.2) :
    AgreeOn K N C E (n + 8) ((List.range 4).foldl (fun p i => S.rk4Stage Cf t dt o i p) p).1
      ((List.range 4).foldl (fun p i => S'.rk4Stage Cf t dt o' i p) q).1 ∧
    AgreeOn K N C E (n + 8) ((List.range 4).foldl (fun p i => S.rk4Stage Cf t dt o i p) p).2
      ((List.range 4).foldl (fun p i => S'.rk4Stage Cf t dt o' i p) q).2 := by
  have stage : ∀ (j i : Nat) {p q : Fld R × Fld R}, AgreeOn K N C E (n + j) p.1 q.1 →
      AgreeOn K N C E (n + j) p.2 q.2 →
      (i < 3 → AgreeOn K N C E (n + j + 2) (S.rk4Stage Cf t dt o i p).1 (S'.rk4Stage Cf t dt o' i q).1) ∧
      (¬ i < 3 → AgreeOn K N C E (n + j) (S.rk4Stage Cf t dt o i p).1 (S'.rk4Stage Cf t dt o' i q).1) ∧
      AgreeOn K N C E (n + j) (S.rk4Stage Cf t dt o i p).2 (S'.rk4Stage Cf t dt o' i q).2 := by
    intro j i p q h1 h2
    refine ⟨fun hi => ?_, fun hi => ?_, h2.axpy h1⟩
    · simp only [Sys.rk4Stage, hi, if_true]
      exact agree_tend W .replace _ (h1.lift W 2) ((ho.lift W j).axpy h1)
    · simp only [Sys.rk4Stage, hi, if_false]
      exact h1
  have s0 := stage 2 0 h.1 (h.2.lift W 2)
  have s1 := stage 4 1 (s0.1 (by omega)) (s0.2.2.lift W 2)
  have s2 := stage 6 2 (s1.1 (by omega)) (s1.2.2.lift W 2)
  have s3 := stage 8 3 (s2.1 (by omega)) (s2.2.2.lift W 2)
  exact ⟨s3.2.1 (by omega), s3.2.2⟩

/-- A step reaches two levels per tendency evaluation. -/
theorem agree_step (stp : Stepper) (t dt : R) {p q : Fld R × Fld R}
    (h : AgreeOn K N C E n p.1 q.1 ∧ AgreeOn K N C E n p.2 q.2) :
    AgreeOn K N C E (n + 2 * stp.stages) (S.step t dt p stp).1 (S'.step t dt q stp).1 ∧
    AgreeOn K N C E (n + 2 * stp.stages) (S.step t dt p stp).2 (S'.step t dt q stp).2 := by
  cases stp with
  | lsrk m =>
    have := agree_lsrk W (lsrkCoef m) t dt (List.range m) h
    rw [List.length_range] at this
    exact this
  | rk4 => exact agree_rk4 W rk4Coef t dt h.2 ⟨agree_tend W .replace t (h.1.lift W 2) h.2, h.2⟩

theorem agree_run (stp : Stepper) (sched : List (R × R)) {p q : Fld R × Fld R}
    (h : AgreeOn K N C E n p.1 q.1 ∧ AgreeOn K N C E n p.2 q.2) :
    AgreeOn K N C E (n + 2 * stp.stages * sched.length) (S.run stp sched p).1 (S'.run stp sched q).1 ∧
    AgreeOn K N C E (n + 2 * stp.stages * sched.length) (S.run stp sched p).2 (S'.run stp sched q).2 := by
  induction sched generalizing n p q with
  | nil => exact h
  | cons x J ih =>
    have := ih (agree_step W stp x.1 x.2 h)
    rw [show n + 2 * stp.stages + 2 * stp.stages * J.length =
      n + 2 * stp.stages * (x :: J).length by simp [Nat.mul_add]; omega] at this
    exact this

end

end Refine
end Omega
