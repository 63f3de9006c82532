import Verif.Props.RoundedOrder
import Verif.Props.Simd

/-!
# C101: a fluid at rest stays at rest in floating-point arithmetic

C22 is about exact arithmetic, where the terms of a fluid at rest cancel for algebraic reasons.  Here the arithmetic is
only known to satisfy `ZeroLaws`: a product with zero is zero, zero plus or minus zero is zero, and an operation on a
number that is not finite gives a number that is not finite.  Nothing is assumed about rounding.
-/

set_option linter.unusedVariables false
set_option linter.unusedSectionVars false

namespace Omega
namespace Refine

open Prog Model

/-- What exactness at rest needs of a floating-point arithmetic with finite numbers `fin`. -/
structure ZeroLaws {R : Type} [Scalar R] (fin : R → Prop) : Prop where
  add : ∀ {a b : R}, fin (a + b) → fin a ∧ fin b
  sub : ∀ {a b : R}, fin (a - b) → fin a ∧ fin b
  mul : ∀ {a b : R}, fin (a * b) → fin a ∧ fin b
  div : ∀ {a b : R}, fin (a / b) → fin a ∧ fin b
  add_zero : (lit 0 : R) + lit 0 = lit 0
  sub_zero : (lit 0 : R) - lit 0 = lit 0
  mul_zero : ∀ {a : R}, fin (a * lit 0) → a * lit 0 = lit 0
  zero_mul : ∀ {a : R}, fin (lit 0 * a) → lit 0 * a = lit 0

/-- `a` is a machine number: it is not changed by the addition of zero, and subtracted from itself it gives zero. -/
def Stored {R : Type} [Scalar R] (a : R) : Prop := a + lit 0 = a ∧ a - a = lit 0

/-- `x` is `a`, unless it is not finite. -/
def OrBad {R : Type} (fin : R → Prop) (a x : R) : Prop := fin x → x = a

namespace ZeroLaws

variable {R : Type} [Scalar R] {fin : R → Prop} (hz : ZeroLaws fin)
include hz

/-- shorthand: zero, unless not finite -/
local notation "Z" => OrBad fin (lit 0)

theorem lit0 : Z (lit 0) := fun _ => rfl
theorem addZ {a b : R} (ha : Z a) (hb : Z b) : Z (a + b) := fun h => by
  rw [ha (hz.add h).1, hb (hz.add h).2, hz.add_zero]
theorem subZ {a b : R} (ha : Z a) (hb : Z b) : Z (a - b) := fun h => by
  rw [ha (hz.sub h).1, hb (hz.sub h).2, hz.sub_zero]
theorem mulL {a : R} (b : R) (ha : Z a) : Z (a * b) := fun h => by
  have e := ha (hz.mul h).1
  rw [e] at h ⊢
  exact hz.zero_mul h
theorem mulR (a : R) {b : R} (hb : Z b) : Z (a * b) := fun h => by
  have e := hb (hz.mul h).2
  rw [e] at h ⊢
  exact hz.mul_zero h
theorem subSelf {a x y : R} (hs : a - a = lit 0) (hx : OrBad fin a x) (hy : OrBad fin a y) : Z (x - y) := fun h => by
  rw [hx (hz.sub h).1, hy (hz.sub h).2, hs]
theorem keep {a x y : R} (hs : Stored a) (hx : OrBad fin a x) (hy : Z y) : OrBad fin a (x + y) := fun h => by
  rw [hx (hz.add h).1, hy (hz.add h).2, hs.1]

theorem fold {n : Int} {f : Int → R → R} (h : ∀ j, 0 ≤ j → j < n → ∀ s, Z s → Z (f j s)) : Z (foldI n (lit 0) f) :=
  foldI_rel (P := fun a (_ : Unit) => Z a) (t := ()) (g := fun _ _ => ()) hz.lit0 fun j h0 h1 a _ ha => h j h0 h1 a ha

variable {M : Mesh R} {x y w nr nf hf : Int → R} {g q : R} {k i : Int}

theorem ke (hx : ∀ i, Z (x i)) : Z (Fn.ke M x i) :=
  hz.fold fun j _ _ s hs => hz.addZ hs (hz.mulL _ (hz.mulR _ (hx _)))
theorem divg (hx : ∀ i, Z (x i)) : Z (Fn.div M x i) := hz.fold fun j _ _ s hs => hz.addZ hs (hz.mulR _ (hx _))
theorem rvort (hx : ∀ i, Z (x i)) : Z (Fn.rvort M x i) := hz.fold fun j _ _ s hs => hz.addZ hs (hz.mulR _ (hx _))
theorem del2div (hx : ∀ i, Z (x i)) : Z (Fn.del2div M x i) := hz.fold fun j _ _ s hs => hz.addZ hs (hz.mulR _ (hx _))
theorem hadv (hx : ∀ i, Z (x i)) : Z (Fn.hadv M x y i) := hz.fold fun j _ _ s hs => hz.subZ hs (hz.mulR _ (hx _))
theorem pv (hx : ∀ i, Z (x i)) : Z (Fn.pv M nr nf hf x i) :=
  hz.fold fun j _ _ s hs => hz.addZ hs (hz.mulL _ (hz.mulR _ (hx _)))
theorem pv' (hx : ∀ i, Z (x i)) : Z (SFn.pv M nr nf hf x i) :=
  hz.fold fun j _ _ s hs => hz.addZ hs (hz.mulL _ (hz.mulR _ (hx _)))
theorem keG (hx : ∀ i, Z (x i)) : Z (Fn.keG M x i) := hz.mulL _ (hz.subZ (hx _) (hx _))
theorem sshG (hq : q - q = lit 0) (hx : ∀ i, OrBad fin q (x i)) : Z (Fn.sshG M g x i) :=
  hz.mulL _ (hz.mulR _ (hz.subSelf hq (hx _) (hx _)))
theorem vdiff (hx : ∀ i, Z (x i)) (hy : ∀ i, Z (y i)) : Z (Fn.vdiff M g k x y i) :=
  hz.mulR _ (hz.subZ (hz.mulL _ (hz.subZ (hx _) (hx _))) (hz.mulL _ (hz.subZ (hy _) (hy _))))
theorem vdiff' (hx : ∀ i, Z (x i)) (hy : ∀ i, Z (y i)) : Z (SFn.vdiff M g k x y i) :=
  hz.mulR _ (hz.subZ (hz.mulL _ (hz.subZ (hx _) (hx _))) (hz.mulL _ (hz.subZ (hy _) (hy _))))
theorem vhyper (hx : ∀ i, Z (x i)) (hy : ∀ i, Z (y i)) : Z (Fn.vhyper M g k x y i) :=
  hz.mulR _ (hz.subZ (hz.mulL _ (hz.subZ (hx _) (hx _))) (hz.mulL _ (hz.subZ (hy _) (hy _))))
theorem del2 (hx : ∀ i, Z (x i)) (hy : ∀ i, Z (y i)) : Z (Fn.del2 M x y i) :=
  hz.subZ (hz.mulL _ (hz.subZ (hx _) (hx _))) (hz.mulL _ (hz.subZ (hy _) (hy _)))
theorem thadv (hx : ∀ i, Z (x i)) : Z (Fn.thadv M x y w i) := hz.fold fun j _ _ s hs => hz.subZ hs (hz.mulR _ (hx _))
theorem thadv' (hx : ∀ i, Z (x i)) : Z (SFn.thadv M x y w i) := hz.fold fun j _ _ s hs => hz.subZ hs (hz.mulR _ (hx _))
theorem tdiff (hq : q - q = lit 0) (hx : ∀ i, OrBad fin q (x i)) : Z (Fn.tdiff M g x y i) :=
  hz.fold fun j _ _ s hs => hz.addZ hs (hz.mulR _ (hz.mulL _ (hz.subSelf hq (hx _) (hx _))))
theorem tdiff' (hq : q - q = lit 0) (hx : ∀ i, OrBad fin q (x i)) : Z (SFn.tdiff M g x y i) :=
  hz.fold fun j _ _ s hs => hz.addZ hs (hz.mulR _ (hz.mulL _ (hz.subSelf hq (hx _) (hx _))))
theorem tdel2 (hq : q - q = lit 0) (hx : ∀ i, OrBad fin q (x i)) : Z (Fn.tdel2 M x y i) :=
  hz.fold fun j _ _ s hs => hz.addZ hs (hz.mulR _ (hz.mulL _ (hz.subSelf hq (hx _) (hx _))))
theorem thyper (hx : ∀ i, Z (x i)) : Z (Fn.thyper M g x i) :=
  hz.fold fun j _ _ s hs => hz.subZ hs (hz.mulR _ (hz.mulL _ (hz.subZ (hx _) (hx _))))
theorem ntr {a b : R} (hx : ∀ i, OrBad fin a (x i)) (hy : ∀ i, OrBad fin b (y i)) :
    OrBad fin (a * (lit 1 / b)) (Fn.ntr x y i) := fun h => by
  have h1 := hz.mul h
  show x i * (lit 1 / y i) = _
  rw [hx i h1.1, hy i (hz.div h1.2).2]

end ZeroLaws

/-- every entry of `x` is that of `y`, unless it is not finite; for tracers under a condition -/
def FldOrBad {R : Type} (fin : R → Prop) (K : Prop) (y x : Fld R) : Prop :=
  (∀ c k, OrBad fin (y.h c k) (x.h c k)) ∧ (∀ e k, OrBad fin (y.vn e k) (x.vn e k)) ∧
    (K → ∀ l c k, OrBad fin (y.tr l c k) (x.tr l c k))

/-- no flow, thickness `H` by layer, tracers `T` -/
def restF {R : Type} [Scalar R] (H : Int → R) (T : Int → Int → Int → R) : Fld R :=
  ⟨fun _ k => H k, fun _ _ => lit 0, T⟩

/-- What keeps the tracers: there is no diffusion, or they are uniform in every layer and the quotient of tracer and
thickness is a machine number.  The latter excludes arithmetics that do not round a product before it is subtracted
(the code stores the quotient, so a compiler cannot contract it, but the model of contraction does not look at
stores). -/
def TracersKept {R : Type} [Scalar R] (sw : SWModel R) (H : Int → R) (T : Int → Int → Int → R) : Prop :=
  (sw.en_tdiff = false ∧ sw.en_thyper = false) ∨
    ∀ l k, ∃ q, (∀ c, T l c k = q) ∧ q * (lit 1 / H k) - q * (lit 1 / H k) = lit 0

theorem start_or {R : Type} [Scalar R] {fin : R → Prop} {mode : AddMode} {o : R} (h : OrBad fin (lit 0) o) :
    OrBad fin (lit 0) (Sys.start mode o) := by
  unfold Sys.start
  split_ifs
  · exact fun _ => rfl
  · exact h

theorem rest_tend_float {R : Type} [Scalar R] {fin : R → Prop} (hz : ZeroLaws fin) {S : Sys R}
    (hF : S.F = scalarF ∨ S.F = simdF) (hH : S.H = noHook) {H : Int → R} {T : Int → Int → Int → R}
    (h1 : ∀ k, H k - H k = lit 0) {mode : AddMode} {t : R} {o s : Fld R} (ho : FldOrBad fin (TracersKept S.sw H T) zeroFld o)
    (hs : FldOrBad fin (TracersKept S.sw H T) (restF H T) s) :
    FldOrBad fin (TracersKept S.sw H T) zeroFld (S.tend mode t o s) := by
  obtain ⟨o1, o2, o3⟩ := ho
  obtain ⟨s1, s2, s3⟩ := hs
  have hv : ∀ k i, OrBad fin (lit 0) (Sys.vk s k i) := fun k i => s2 i k
  have hh : ∀ k i, OrBad fin (H k) (Sys.hk s k i) := fun k i => s1 i k
  have f1 : ∀ k i, OrBad fin (lit 0) (S.rv s k i) := fun k i => by
    rcases hF with e | e <;> (unfold Sys.rv; rw [e]; exact hz.rvort (hv k))
  have f2 : ∀ k i, OrBad fin (lit 0) (S.keC s k i) := fun k i => by
    rcases hF with e | e <;> (unfold Sys.keC; rw [e]; exact hz.ke (hv k))
  have f3 : ∀ k i, OrBad fin (lit 0) (S.divC s k i) := fun k i => by
    rcases hF with e | e <;> (unfold Sys.divC; rw [e]; exact hz.divg (hv k))
  have f4 : ∀ k i, OrBad fin (lit 0) (S.d2E s k i) := fun k i => by
    rcases hF with e | e <;> (unfold Sys.d2E; rw [e]; exact hz.del2 (f3 k) (f1 k))
  have f5 : ∀ k i, OrBad fin (lit 0) (S.d2V s k i) := fun k i => by
    rcases hF with e | e <;> (unfold Sys.d2V; rw [e]; exact hz.rvort (f4 _))
  have f6 : ∀ k i, OrBad fin (lit 0) (S.d2C s k i) := fun k i => by
    rcases hF with e | e <;> (unfold Sys.d2C; rw [e]; exact hz.del2div (f4 _))
  refine ⟨fun c k => ?_, fun e k => ?_, fun hT l c k => ?_⟩
  · simp only [Sys.tend, hH, noHook, Sys.termsH]
    have a := start_or (mode := mode) (o1 c k)
    split_ifs
    · exact o1 c k
    · refine hz.addZ a ?_
      rcases hF with e | e <;> (rw [e]; exact hz.hadv (hv k))
    · exact a
  · simp only [Sys.tend, hH, noHook, Sys.termsVn]
    by_cases hdis : S.sw.prm.disable_vn = true
    · rw [if_pos hdis]; exact o2 e k
    rw [if_neg hdis]
    have a := start_or (mode := mode) (o2 e k)
    have ite : ∀ {b : Bool} {x y : R}, OrBad fin (lit 0) x → OrBad fin (lit 0) y →
        OrBad fin (lit 0) (if b = true then x else y) := fun hx hy => by split_ifs; exacts [hx, hy]
    have t1 : OrBad fin (lit 0) (S.F.pv S.M (S.nrvE s k) (S.npvE s k) (S.flux s k) (Sys.vk s k) e) := by
      rcases hF with e | e <;> rw [e]
      · exact hz.pv (hv k)
      · exact hz.pv' (hv k)
    have t2 : OrBad fin (lit 0) (S.F.keG S.M (S.keC s k) e) := by
      rcases hF with e | e <;> (rw [e]; exact hz.keG (f2 k))
    have t3 : OrBad fin (lit 0) (S.F.sshG S.M S.sw.prm.grav (Sys.hk s k) e) := by
      rcases hF with e | e <;> (rw [e]; exact hz.sshG (h1 k) (hh k))
    have t4 : OrBad fin (lit 0) (S.F.vdiff S.M S.sw.prm.visc_del2 k (S.divC s k) (S.rv s k) e) := by
      rcases hF with e | e <;> rw [e]
      · exact hz.vdiff (f3 k) (f1 k)
      · exact hz.vdiff' (f3 k) (f1 k)
    have t5 : OrBad fin (lit 0) (S.F.vhyper S.M S.sw.prm.visc_del4 k (S.d2C s k) (S.d2V s k) e) := by
      rcases hF with e | e <;> (rw [e]; exact hz.vhyper (f6 k) (f5 k))
    have a1 := ite (b := S.sw.en_pv) (hz.addZ a t1) a
    have a2 := ite (b := S.sw.en_ke) (hz.subZ a1 t2) a1
    have a3 := ite (b := S.sw.en_ssh) (hz.subZ a2 t3) a2
    have a4 := ite (b := S.sw.en_vdiff) (hz.addZ a3 t4) a3
    exact ite (b := S.sw.en_vhyper) (hz.subZ a4 t5) a4
  · simp only [Sys.tend, Sys.termsTr]
    have a := start_or (mode := mode) (o3 hT l c k)
    have ite : ∀ {b : Bool} {x y : R}, OrBad fin (lit 0) x → OrBad fin (lit 0) y →
        OrBad fin (lit 0) (if b = true then x else y) := fun hx hy => by split_ifs; exacts [hx, hy]
    have t1 : OrBad fin (lit 0) (S.F.thadv S.M (Sys.vk s k) (S.ntrC s l k) (S.flux s k) c) := by
      rcases hF with e | e <;> rw [e]
      · exact hz.thadv (hv k)
      · exact hz.thadv' (hv k)
    have a1 := ite (b := S.sw.en_thadv) (hz.addZ a t1) a
    have s3' := s3 hT
    rcases hT with ⟨d2, d4⟩ | hT
    · show OrBad fin (lit 0) _
      simpa [d2, d4] using a1
    · obtain ⟨q, hq, q0⟩ := hT l k
      have hn : ∀ i, OrBad fin (q * (lit 1 / H k)) (S.ntrC s l k i) := fun i => by
        have ht : ∀ i, OrBad fin q (Sys.tk s l k i) := fun i h => (s3' l i k h).trans (hq i)
        rcases hF with e | e <;> (unfold Sys.ntrC; rw [e]; exact hz.ntr ht (hh k))
      have t2 : OrBad fin (lit 0) (S.F.tdiff S.M S.sw.prm.eddy_diff2 (S.ntrC s l k) (S.flux s k) c) := by
        rcases hF with e | e <;> rw [e]
        · exact hz.tdiff q0 hn
        · exact hz.tdiff' q0 hn
      have t3 : ∀ i, OrBad fin (lit 0) (S.t2C s l k i) := fun i => by
        rcases hF with e | e <;> (unfold Sys.t2C; rw [e]; exact hz.tdel2 q0 hn)
      have t4 : OrBad fin (lit 0) (S.F.thyper S.M S.sw.prm.eddy_diff4 (S.t2C s l k) c) := by
        rcases hF with e | e <;> (rw [e]; exact hz.thyper t3)
      have a2 := ite (b := S.sw.en_tdiff) (hz.addZ a1 t2) a1
      exact ite (b := S.sw.en_thyper) (hz.addZ a2 t4) a2

theorem stepRel_rest_float {R : Type} [Scalar R] {fin : R → Prop} (hz : ZeroLaws fin) {S : Sys R}
    (hF : S.F = scalarF ∨ S.F = simdF) (hH : S.H = noHook) {H : Int → R} {T : Int → Int → Int → R}
    (h1 : ∀ k, Stored (H k)) (h2 : ∀ l c k, Stored (T l c k)) :
    StepRel S S (fun x _ => FldOrBad fin (TracersKept S.sw H T) zeroFld x)
      (fun x _ => FldOrBad fin (TracersKept S.sw H T) (restF H T) x) := by
  refine StepRel.of_inv (fun ho hs => rest_tend_float hz hF hH (fun k => (h1 k).2) ho hs) ?_ ?_
  · exact fun a h => ⟨fun c k => hz.mulL a (h.1 c k), fun e k => hz.mulL a (h.2.1 e k),
      fun hK l c k => hz.mulL a (h.2.2 hK l c k)⟩
  · exact fun a hs h => ⟨fun c k => hz.keep (h1 k) (hs.1 c k) (hz.mulR a (h.1 c k)),
      fun e k => hz.addZ (hs.2.1 e k) (hz.mulR a (h.2.1 e k)),
      fun hK l c k => hz.keep (h2 l c k) (hs.2.2 hK l c k) (hz.mulR a (h.2.2 hK l c k))⟩

end Refine

namespace Props

open Prog Model Refine

section
variable {R : Type} [Scalar R] {fin : R → Prop}

theorem rest_float_run (hz : ZeroLaws fin) {d : Dims} {m m1 : Mem R} {K : Kernels R} {S : Sys R}
    (hS : Setup d K S m) (hF : S.F = scalarF ∨ S.F = simdF) (hH : S.H = noHook) {stp : Stepper}
    {sched : List (R × R)} {split : Bool} (he : Exec d (stp.ctor d ++ stp.run d ⟨K, split⟩ S.sw sched) m m1)
    {H : Int → R} {T : Int → Int → Int → R} (h1 : ∀ k, Stored (H k)) (h2 : ∀ l c k, Stored (T l c k))
    (h0 : EqFld d (m.fld .state) (restF H T)) :
    (∀ c k, 0 ≤ c → c < d.ncells → 0 ≤ k → k < d.nlayers → fin (m1.real (.h_cell .state) 0 c k) →
      m1.real (.h_cell .state) 0 c k = H k) ∧
    (∀ e k, 0 ≤ e → e < d.nedges → 0 ≤ k → k < d.nlayers → fin (m1.real (.vn_edge .state) 0 e k) →
      m1.real (.vn_edge .state) 0 e k = lit 0) ∧
    (TracersKept S.sw H T → ∀ l c k, 0 ≤ l → l < d.ntracers → 0 ≤ c → c < d.ncells → 0 ≤ k → k < d.nlayers →
      fin (m1.real (.tr_cell .state) l c k) → m1.real (.tr_cell .state) l c k = T l c k) := by
  obtain ⟨-, -, v⟩ := hS.newRun he
  have hl := run_local hS.sys stp sched (p := (zeroFld, m.fld .state)) (q := (zeroFld, restF H T))
    ⟨EqFld.refl _ _, h0⟩
  have v := v.trans hl.2
  obtain ⟨a, b, c⟩ := ((stepRel_rest_float hz hF hH h1 h2).run stp sched (p := (zeroFld, restF H T))
    (q := (zeroFld, restF H T)) ⟨fun _ _ _ => rfl, fun _ _ _ => rfl, fun _ _ _ _ _ => rfl⟩
    ⟨fun _ _ _ => rfl, fun _ _ _ => rfl, fun _ _ _ _ _ => rfl⟩).2
  refine ⟨fun i k c0 c1 k0 k1 hf => ?_, fun i k c0 c1 k0 k1 hf => ?_, fun hK l i k l0 l1 c0 c1 k0 k1 hf => ?_⟩
  · have e := v.h i k c0 c1 k0 k1
    exact e.trans (a i k (e ▸ hf))
  · have e := v.vn i k c0 c1 k0 k1
    exact e.trans (b i k (e ▸ hf))
  · have e := v.tr l i k l0 l1 c0 c1 k0 k1
    exact e.trans (c hK l i k (e ▸ hf))

/-- In any arithmetic with `ZeroLaws`, on any mesh with valid tables, in the default and in the explicit-SIMD build,
with either kind of stepper, any step sizes, viscosities and combination of terms: from a fluid at rest whose layers
have uniform thickness, every thickness and velocity after any number of steps is exactly the initial one, or it is
not finite.  The same holds of the tracers if they do not diffuse, or are uniform in each layer and the arithmetic
rounds the stored quotient of tracer and thickness. -/
theorem C101_rest_float (hz : ZeroLaws fin) {d : Dims} {m m1 : Mem R} (hd : DimsOK d) (hc : ConnOK d m)
    {sw : SWModel R} (hn : sw.NoHook) {K : Kernels R} (hK : K = defaultKernels d.vl ∨ K = simdKernels d.vl d.vl)
    {stp : Stepper} {sched : List (R × R)} {split : Bool}
    (he : Exec d (stp.ctor d ++ stp.run d ⟨K, split⟩ sw sched) m m1)
    {H : Int → R} {T : Int → Int → Int → R} (h1 : ∀ k, Stored (H k)) (h2 : ∀ l c k, Stored (T l c k))
    (h0 : EqFld d (m.fld .state) (restF H T)) :
    (∀ c k, 0 ≤ c → c < d.ncells → 0 ≤ k → k < d.nlayers → fin (m1.real (.h_cell .state) 0 c k) →
      m1.real (.h_cell .state) 0 c k = H k) ∧
    (∀ e k, 0 ≤ e → e < d.nedges → 0 ≤ k → k < d.nlayers → fin (m1.real (.vn_edge .state) 0 e k) →
      m1.real (.vn_edge .state) 0 e k = lit 0) ∧
    (TracersKept sw H T → ∀ l c k, 0 ≤ l → l < d.ntracers → 0 ≤ c → c < d.ncells → 0 ≤ k → k < d.nlayers →
      fin (m1.real (.tr_cell .state) l c k) → m1.real (.tr_cell .state) l c k = T l c k) := by
  rcases hK with rfl | rfl
  · exact rest_float_run hz (genSetup hd hc (hookOK_noHook hn d m)) (.inl rfl) rfl he h1 h2 h0
  · exact rest_float_run hz (simdSetup hd hc (hookOK_noHook hn d m)) (.inr rfl) rfl he h1 h2 h0

end

noncomputable section

/-- In exact arithmetic, where every number is finite, this is C22 for both builds. -/
theorem zeroLaws_real : ZeroLaws (fun _ : ℝ => True) where
  add _ := ⟨trivial, trivial⟩
  sub _ := ⟨trivial, trivial⟩
  mul _ := ⟨trivial, trivial⟩
  div _ := ⟨trivial, trivial⟩
  add_zero := by simp
  sub_zero := by simp
  mul_zero _ := by simp
  zero_mul _ := by simp

/-! ### Binary floating point -/

/-- integers are not rounded -/
theorem roundEven_int (z : ℤ) : roundEven z = z := by
  unfold roundEven
  rw [if_neg (by rw [Int.fract_intCast]; norm_num), round_intCast]

/-- a number with enough trailing zeros is not rounded -/
theorem rnd_of_ulp {b : ℕ} {y : ℝ} {z e : ℤ} (hy : y = z * 2 ^ e) (he : ulpExp b y ≤ e) : rndIeee b y = y := by
  obtain ⟨n, hn⟩ := Int.eq_ofNat_of_zero_le (sub_nonneg.2 he)
  have h2 : (2 : ℝ) ^ ulpExp b y ≠ 0 := by positivity
  have key : y / 2 ^ ulpExp b y = ((z * 2 ^ n : ℤ) : ℝ) := by
    rw [div_eq_iff h2]
    conv_lhs => rw [hy]
    rw [show e = n + ulpExp b y by omega, zpow_add₀ (by norm_num), zpow_natCast]
    push_cast
    ring
  rw [rndIeee, key, roundEven_int, ← key, div_mul_cancel₀ _ h2]

/-- rounding twice is rounding once -/
theorem rnd_rnd (b : ℕ) (x : ℝ) : rndIeee b (rndIeee b x) = rndIeee b x := by
  set e := ulpExp b x with he
  set z := roundEven (x / 2 ^ e) with hz
  have hy : rndIeee b x = z * 2 ^ e := rfl
  by_cases hx : x = 0
  · rw [hx, rndIeee_zero, rndIeee_zero]
  have p2 : (0 : ℝ) < 2 ^ e := by positivity
  have hmax : -((1074 + b : ℕ) : ℤ) ≤ e := le_max_right _ _
  have hlog : Int.log 2 |x| - (52 + b : ℕ) ≤ e := le_max_left _ _
  have hx1 : |x / 2 ^ e| < 2 ^ (53 + b) := by
    rw [abs_div, abs_of_pos p2, div_lt_iff₀ p2]
    have h := Int.lt_zpow_succ_log_self (b := 2) (by norm_num) |x|
    push_cast at h
    refine h.trans_le ?_
    rw [← zpow_natCast (2 : ℝ) (53 + b), ← zpow_add₀ (by norm_num)]
    exact zpow_le_zpow_right₀ (by norm_num) (by push_cast at hlog ⊢; omega)
  have hz1 : |z| ≤ 2 ^ (53 + b) := by
    have h := roundEven_err (x / 2 ^ e)
    rw [← hz] at h
    have h1 : |(z : ℝ)| < ((2 ^ (53 + b) + 1 : ℤ) : ℝ) := by
      have := abs_sub_abs_le_abs_sub (z : ℝ) (x / 2 ^ e)
      push_cast
      linarith
    rw [← Int.cast_abs] at h1
    have := Int.cast_lt.1 h1
    omega
  by_cases z0 : z = 0
  · rw [hy, z0]; simp [rndIeee_zero]
  have za : (0 : ℝ) < |(z : ℝ)| := abs_pos.2 (by exact_mod_cast z0)
  rcases hz1.lt_or_eq with lt | eq
  · refine rnd_of_ulp hy (max_le ?_ hmax)
    have : Int.log 2 |rndIeee b x| < 53 + b + e := by
      rw [← Int.lt_zpow_iff_log_lt (by norm_num) (by rw [hy, abs_mul]; positivity), hy, abs_mul, abs_of_pos p2]
      push_cast
      rw [zpow_add₀ (by norm_num)]
      refine mul_lt_mul_of_pos_right ?_ p2
      rw [← Int.cast_abs, show ((53 : ℤ) + b) = ((53 + b : ℕ) : ℤ) by push_cast; ring, zpow_natCast]
      exact_mod_cast lt
    push_cast
    omega
  · have e1 : rndIeee b x = (if 0 < z then 2 ^ (52 + b) else -2 ^ (52 + b) : ℤ) * 2 ^ (e + 1) := by
      rw [hy, zpow_add₀ (by norm_num), zpow_one]
      have : z = (if 0 < z then 2 ^ (52 + b) else -2 ^ (52 + b) : ℤ) * 2 := by
        split_ifs with h
        · rw [abs_of_pos h] at eq; rw [eq, show 53 + b = 52 + b + 1 by omega, pow_succ]
        · rw [abs_of_nonpos (by omega)] at eq
          rw [neg_mul, ← pow_succ, show 52 + b + 1 = 53 + b by omega]; omega
      have e2 := congrArg (Int.cast (R := ℝ)) this
      rw [e2]
      push_cast
      ring
    refine rnd_of_ulp e1 (max_le ?_ (by omega))
    have : Int.log 2 |rndIeee b x| < 54 + b + e := by
      rw [← Int.lt_zpow_iff_log_lt (by norm_num) (by rw [hy, abs_mul]; positivity), hy, abs_mul, abs_of_pos p2]
      push_cast
      rw [zpow_add₀ (by norm_num)]
      refine mul_lt_mul_of_pos_right ?_ p2
      rw [← Int.cast_abs, show ((54 : ℤ) + b) = ((54 + b : ℕ) : ℤ) by push_cast; ring, zpow_natCast, eq]
      push_cast
      exact pow_lt_pow_right₀ (by norm_num) (by omega)
    push_cast
    omega

namespace IeeeRest
variable {b : ℕ} {fma : Bool}

theorem lit_zero : (lit 0 : Ieee b fma) = Ieee.num b fma 0 := by
  show Ieee.ofReal' ((0 : ℤ) : ℝ) = _
  have : 0 < huge b := by have := huge_ge b; linarith
  simp [Ieee.ofReal', Ieee.ofReal, Ieee.num, rndIeee_zero, this]

theorem of0 : (Ieee.ofReal 0 : Ieee b fma) = Ieee.num b fma 0 := by
  have : 0 < huge b := by have := huge_ge b; linarith
  simp [Ieee.ofReal, Ieee.num, rndIeee_zero, this]

theorem of0' : (Ieee.ofReal' 0 : Ieee b fma) = Ieee.num b fma 0 := by
  rw [← lit_zero]
  show _ = Ieee.ofReal' ((0 : ℤ) : ℝ)
  rw [Int.cast_zero]

/-- finite numbers -/
def Finite (x : Ieee b fma) : Prop := x.out ≠ none

theorem map₂_finite {f : ℝ × ℝ → ℝ × ℝ → Ieee b fma} {x y : Ieee b fma} (h : Finite (Ieee.map₂ f x y)) :
    Finite x ∧ Finite y := by
  unfold Finite Ieee.map₂ at *
  rcases hx : x.out with _ | p <;> rcases hy : y.out with _ | q <;> simp_all

/-- Binary64 and its analogues, with and without contraction, satisfy the laws. -/
theorem zeroLaws : ZeroLaws (Finite (b := b) (fma := fma)) where
  add h := map₂_finite h
  sub h := map₂_finite h
  mul h := map₂_finite h
  div h := map₂_finite h
  add_zero := by
    rw [lit_zero]
    show Ieee.ofReal' ((0 : ℝ) + 0) = _
    rw [add_zero, of0']
  sub_zero := by
    rw [lit_zero]
    show Ieee.ofReal' ((0 : ℝ) - 0) = _
    rw [sub_zero, of0']
  mul_zero {a} h := by
    rw [lit_zero] at h ⊢
    have hf := (map₂_finite h).1
    show Ieee.map₂ _ a _ = _
    unfold Ieee.map₂
    unfold Finite at hf
    rcases ha : a.out with _ | p
    · exact absurd ha hf
    · show Ieee.ofReal (p.1 * 0) = _
      rw [mul_zero, of0]
  zero_mul {a} h := by
    rw [lit_zero] at h ⊢
    have hf := (map₂_finite h).2
    show Ieee.map₂ _ _ a = _
    unfold Ieee.map₂
    unfold Finite at hf
    rcases ha : a.out with _ | p
    · exact absurd ha hf
    · show Ieee.ofReal (0 * p.1) = _
      rw [zero_mul, of0]

/-- a rounded number in range is a machine number -/
theorem stored_num {v : ℝ} (h1 : rndIeee b v = v) (h2 : |v| < huge b) : Stored (Ieee.num b fma v) := by
  constructor
  · rw [lit_zero]
    show Ieee.ofReal' (v + 0) = _
    rw [add_zero]
    simp [Ieee.ofReal', Ieee.ofReal, Ieee.num, h1, h2]
  · rw [lit_zero]
    show Ieee.ofReal' (v - v) = _
    rw [sub_self, of0']

theorem ofReal'_cases (x : ℝ) : ¬ Finite (Ieee.ofReal' x : Ieee b fma) ∨ Stored (Ieee.ofReal' x : Ieee b fma) := by
  by_cases h : |rndIeee b x| < huge b
  · right
    have : (Ieee.ofReal' x : Ieee b fma) = Ieee.num b fma (rndIeee b x) := by
      simp [Ieee.ofReal', Ieee.ofReal, Ieee.num, h]
    rw [this]
    exact stored_num (rnd_rnd b x) h
  · left
    simp [Finite, Ieee.ofReal', Ieee.ofReal, h]

/-- Every finite sum is a machine number, so it can be a thickness or tracer above. -/
theorem stored_add (x y : Ieee b fma) (h : Finite (x + y)) : Stored (x + y) := by
  have hf := map₂_finite h
  have key : ∃ r, x + y = Ieee.ofReal' r := by
    show ∃ r, Ieee.map₂ _ x y = _
    unfold Ieee.map₂
    obtain ⟨h1, h2⟩ := hf
    unfold Finite at h1 h2
    rcases hx : x.out with _ | p <;> rcases hy : y.out with _ | q <;> simp_all
  obtain ⟨r, e⟩ := key
  rw [e] at h ⊢
  exact (ofReal'_cases r).resolve_left (not_not.2 h)

/-- and so is every integer up to `2^53` -/
theorem stored_lit {n : ℤ} (hn : |n| ≤ 2 ^ 53) : Stored (lit n : Ieee b fma) := by
  refine (ofReal'_cases (b := b) (fma := fma) (n : ℝ)).resolve_left fun h => h ?_
  have hh : (2 : ℝ) ^ 53 ≤ huge b / 2 := by
    have : (2 : ℝ) ^ 54 ≤ huge b := pow_le_pow_right₀ (by norm_num) (by omega)
    linarith [show (2 : ℝ) ^ 54 = 2 * 2 ^ 53 by norm_num]
  have := (Ieee.ofReal'_fin (b := b) (fma := fma) (x := (n : ℝ))
    ((show |(n : ℝ)| ≤ 2 ^ 53 by exact_mod_cast hn).trans hh)).1.out
  simp [Finite, this]

/-- without contraction every product is a machine number -/
theorem stored_mul (x y : Ieee b false) (h : Finite (x * y)) : Stored (x * y) := by
  have hf := map₂_finite h
  have key : ∃ r, x * y = Ieee.ofReal' r := by
    show ∃ r, Ieee.map₂ _ x y = _
    unfold Ieee.map₂
    obtain ⟨h1, h2⟩ := hf
    unfold Finite at h1 h2
    rcases hx : x.out with _ | p <;> rcases hy : y.out with _ | q <;> simp_all
    refine ⟨p.1 * q.1, ?_⟩
    by_cases hl : |rndIeee b (p.1 * q.1)| < huge b <;> simp [Ieee.ofReal', Ieee.ofReal, hl]
  obtain ⟨r, e⟩ := key
  rw [e] at h ⊢
  exact (ofReal'_cases r).resolve_left (not_not.2 h)

/-- integers up to `2^53` are not rounded -/
theorem lit_num {n : ℤ} (hn : |n| < 2 ^ 53) : (lit n : Ieee b fma) = Ieee.num b fma n := by
  have hn' : |(n : ℝ)| < 2 ^ 53 := by exact_mod_cast hn
  have hh : |(n : ℝ)| < huge b :=
    hn'.trans_le (pow_le_pow_right₀ (by norm_num) (by omega))
  have e : rndIeee b n = n := by
    refine rnd_of_ulp (z := n) (e := 0) (by simp) (max_le ?_ (by omega))
    by_cases n0 : n = 0
    · simp [n0]
    have : Int.log 2 |(n : ℝ)| < 53 := by
      rw [← Int.lt_zpow_iff_log_lt (by norm_num) (abs_pos.2 (by exact_mod_cast n0))]
      exact_mod_cast hn'
    push_cast
    omega
  show Ieee.ofReal' ((n : ℤ) : ℝ) = _
  simp [Ieee.ofReal', Ieee.ofReal, Ieee.num, e, hh]

/-- a quotient of small integers, computed as the code does, is a machine number -/
theorem kept_lit {n c : ℤ} (hn : |n| ≤ 8) (c0 : 1 ≤ c) (c1 : c < 2 ^ 53) :
    (lit n : Ieee b false) * (lit 1 / lit c) - lit n * (lit 1 / lit c) = lit 0 := by
  have c0' : (1 : ℝ) ≤ c := by exact_mod_cast c0
  have hu := huge_ge b
  have q1 : |1 / (c : ℝ)| ≤ 1 := by
    rw [abs_of_pos (by positivity), div_le_one (by positivity)]; exact c0'
  have e1 : (lit 1 / lit c : Ieee b false) = Ieee.num b false (rndIeee b (1 / c)) := by
    rw [lit_num (by norm_num), lit_num (by rw [abs_of_pos (by omega)]; exact c1)]
    show (if (c : ℝ) = 0 then _ else Ieee.ofReal' (((1 : ℤ) : ℝ) / c) : Ieee b false) = _
    rw [if_neg (by positivity), Int.cast_one]
    have := Ieee.rnd_lt (b := b) (x := 1 / (c : ℝ)) (by linarith)
    simp only [Ieee.ofReal', Ieee.ofReal, Ieee.num, this, if_true]
    rfl
  refine (stored_mul _ _ ?_).2
  have q2 : |rndIeee b (1 / c)| ≤ 1 + 1 / 8 := by
    have h1 := rndIeee_err b (1 / (c : ℝ))
    have h2 : prec b * (1 + |1 / (c : ℝ)|) ≤ 1 / 16 * 2 :=
      mul_le_mul (prec_le b) (by linarith) (by positivity) (by norm_num)
    have := abs_sub_abs_le_abs_sub (rndIeee b (1 / c)) (1 / c)
    linarith
  rw [e1, lit_num (hn.trans_lt (by norm_num))]
  show Finite (Ieee.ofReal ((n : ℝ) * rndIeee b (1 / c)) : Ieee b false)
  have hb : |(n : ℝ) * rndIeee b (1 / c)| ≤ huge b / 2 := by
    rw [abs_mul]
    have h1 : |(n : ℝ)| ≤ 8 := by exact_mod_cast hn
    have h2 : (2 : ℝ) ^ 10 ≤ huge b := pow_le_pow_right₀ (by norm_num) (by omega)
    have := mul_le_mul h1 q2 (abs_nonneg _) (by norm_num)
    linarith
  have := Ieee.rnd_lt hb
  simp only [Finite, Ieee.ofReal, this, if_true]
  simp

theorem finite_of_fin {x : Ieee b fma} (h : x.Fin) : Finite x := by simp [Finite, h.out]

end IeeeRest

/-! ### Without overflow -/

/-- a fluid at rest solves the equations -/
theorem rest_solves {d : Dims} {m : Mem ℝ} {sw : SWModel ℝ} {H : Int → ℝ} (hH : ∀ k, 0 < H k) {T : Int → Int → ℝ}
    (tm : ℝ) : Solves d m sw tm fun _ => restFld H T where
  h c k _ _ _ _ x _ := by
    have e := (rest_tend (m := m) sw (H k) 0 k).1 c
    simp only [restFld, e]
    exact hasDerivWithinAt_const _ _ _
  vn c k _ _ _ _ x _ := by
    have e := (rest_tend (m := m) sw (H k) 0 k).2.1 c
    simp only [restFld, e]
    exact hasDerivWithinAt_const _ _ _
  tr l c k _ _ _ _ _ _ x _ := by
    have e := (rest_tend (m := m) sw (H k) (T l k) k).2.2 c
    simp only [restFld, e]
    exact hasDerivWithinAt_const _ _ _
  wet c k _ _ _ _ x _ := hH k

/-- For every mesh, parameters, layer thicknesses, tracers and time `tm` there is `τ` such that in every
floating-point arithmetic of precision `ε` whose numbers satisfy `ZeroLaws`, every run of the classical or five-stage stepper up to
`tm` with step size at most `τ` and `ε ≤ τ dt` leaves a fluid at rest exactly as it is: nothing overflows and nothing
is rounded differently in different cells.  (`defect` is how far the coefficients of the five-stage stepper are from
fourth order.) -/
theorem C101_rest_exact {p : MeshParams} (hv : RunValid p) {dc : ℝ} (hdc : 0 < dc)
    {prm : Params ℝ} (n1 : prm.disable_h = false) (n2 : prm.disable_vn = false) {m : Mem ℝ}
    (hr : Ready p dc prm m) {H : Int → ℝ} (hH : ∀ k, 0 < H k) (T : Int → Int → ℝ) (tm : ℝ) :
    ∃ τ : ℝ, 0 < τ ∧ ∀ (R : Type) [Scalar R] (fin : R → Prop) (val : R → ℝ) (ε : ℝ), Machine fin val ε →
      ∀ fin' : R → Prop, ZeroLaws fin' → (∀ x, fin x → fin' x) → ∀ (dcR : R) (prmR : Params R) (mR : Mem R), IsNum fin val dcR dc →
      ParamVals fin val prmR prm → Ready p dcR prmR mR →
      ∀ (HR : Int → R) (TR : Int → Int → R), (∀ k, Stored (HR k) ∧ IsNum fin val (HR k) (H k)) →
      (∀ l k, Stored (TR l k) ∧ IsNum fin val (TR l k) (T l k)) →
      EqFld p.dims (mR.fld .state) (restF HR fun l _ k => TR l k) →
      ∀ stp, FourthOrder stp → ∀ (dt : R) (sched : List (R × R)) (split : Bool) (m1 : Mem R),
      fin dt → 0 < val dt → val dt ≤ τ → ε ≤ τ * val dt → (∀ q ∈ sched, q.2 = dt) → sched.length * val dt ≤ tm →
      sched.length * val dt * defect stp ≤ τ →
      Exec p.dims (stp.ctor p.dims ++ stp.run p.dims ⟨defaultKernels p.dims.vl, split⟩
        (SWModel.ofParams prmR) sched) mR m1 →
      (∀ c k, 0 ≤ c → c < p.dims.ncells → 0 ≤ k → k < p.dims.nlayers → m1.real (.h_cell .state) 0 c k = HR k) ∧
      (∀ e k, 0 ≤ e → e < p.dims.nedges → 0 ≤ k → k < p.dims.nlayers → m1.real (.vn_edge .state) 0 e k = lit 0) ∧
      (TracersKept (SWModel.ofParams prmR) HR (fun l _ k => TR l k) → ∀ l c k, 0 ≤ l → l < p.dims.ntracers →
        0 ≤ c → c < p.dims.ncells → 0 ≤ k → k < p.dims.nlayers → m1.real (.tr_cell .state) l c k = TR l k) := by
  obtain ⟨K, τ, K0, τ0, key⟩ := C87_rounded_run hv hdc n1 n2 hr (rest_solves (T := T) hH tm)
  refine ⟨τ, τ0, fun R _ fin val ε hR fin' hz hf dcR prmR mR e1 e2 hrR HR TR hHR hTR h0 stp hstp dt sched split m1 fdt d0 d1 hε
    hs hT hdef he => ?_⟩
  obtain ⟨hd, hc⟩ := ready_ok hv hrR
  have num0 : ∀ {r : R} {x : ℝ}, IsNum fin val r x → Within fin val 0 r x := fun h => ⟨h.1, by rw [h.2]; simp⟩
  obtain ⟨a, b, c⟩ := key R fin val ε hR dcR prmR mR e1 e2 hrR 0 le_rfl τ0.le
    (fun c k c0 c1 k0 k1 => by
      rw [show mR.real (.h_cell .state) 0 c k = HR k from h0.h c k c0 c1 k0 k1]; exact num0 (hHR k).2)
    (fun c k c0 c1 k0 k1 => by
      rw [show mR.real (.vn_edge .state) 0 c k = lit 0 from h0.vn c k c0 c1 k0 k1]; exact num0 hR.zero)
    (fun l c k l0 l1 c0 c1 k0 k1 => by
      rw [show mR.real (.tr_cell .state) l c k = TR l k from h0.tr l c k l0 l1 c0 c1 k0 k1]; exact num0 (hTR l k).2)
    stp hstp dt sched split m1 fdt d0 d1 hε hs hT hdef he
  obtain ⟨a', b', c'⟩ := C101_rest_float hz hd hc (noHook_ofParams prmR) (.inl rfl) he (fun k => (hHR k).1)
    (fun l c k => (hTR l k).1) h0
  exact ⟨fun i k c0 c1 k0 k1 => a' i k c0 c1 k0 k1 (hf _ (a i k c0 c1 k0 k1).1),
    fun i k c0 c1 k0 k1 => b' i k c0 c1 k0 k1 (hf _ (b i k c0 c1 k0 k1).1),
    fun hK l i k l0 l1 c0 c1 k0 k1 => c' hK l i k l0 l1 c0 c1 k0 k1 (hf _ (c l i k l0 l1 c0 c1 k0 k1).1)⟩

/-! ### Non-vacuity -/

/-- In double precision with rounding after every operation: two layers of thickness 10 and 13, tracers that diffuse,
rotation and both viscosities, on 24 cells with spacing 2; the run with steps `1/3` rounded exists in both builds, the
assumptions hold, and so its velocities are zero or not finite. -/
example (simd : Bool) : ∃ (mR m1 : Mem (Ieee 0 false)) (prm : Params (Ieee 0 false)),
    Ready p46t (lit 2) prm mR ∧ (SWModel.ofParams prm).en_tdiff = true ∧
    (∀ k : Int, Stored (if k = 0 then lit 10 else lit 13 : Ieee 0 false)) ∧
    TracersKept (SWModel.ofParams prm) (fun k => if k = 0 then lit 10 else lit 13) (fun l _ k => lit 7) ∧
    EqFld p46t.dims (mR.fld .state) (restF (fun k => if k = 0 then lit 10 else lit 13) fun l _ k => lit 7) ∧
    Exec p46t.dims (Stepper.rk4.ctor p46t.dims ++ Stepper.rk4.run p46t.dims
      ⟨if simd then simdKernels p46t.dims.vl p46t.dims.vl else defaultKernels p46t.dims.vl, true⟩
      (SWModel.ofParams prm) (List.replicate 1000 (lit 0, lit 1 / lit 3))) mR m1 ∧
    ∀ e k, 0 ≤ e → e < p46t.dims.nedges → 0 ≤ k → k < p46t.dims.nlayers →
      IeeeRest.Finite (m1.real (.vn_edge .state) 0 e k) → m1.real (.vn_edge .state) 0 e k = lit 0 := by
  obtain ⟨prm, hp⟩ : ∃ q : Params (Ieee 0 false), q = ⟨lit 1, lit 10, lit 1, lit 1, lit 1, lit 1, false, false⟩ := ⟨_, rfl⟩
  obtain ⟨mR, hr, hs, -⟩ := exists_ready p46t_run.toValid (lit 2) prm
    (restF (fun k => if k = 0 then lit 10 else lit 13) fun l _ k => lit 7) zeroFld
  obtain ⟨hd, hc⟩ := ready_ok p46t_run hr
  have hn := noHook_ofParams prm
  have st : ∀ k : Int, Stored (if k = 0 then lit 10 else lit 13 : Ieee 0 false) := fun k => by
    split_ifs
    · exact IeeeRest.stored_lit (by norm_num)
    · exact IeeeRest.stored_lit (by norm_num)
  have hk : TracersKept (SWModel.ofParams prm) (fun k => if k = 0 then lit 10 else lit 13) (fun l _ k => lit 7) :=
    .inr fun l k => ⟨lit 7, fun _ => rfl, by
      beta_reduce
      split_ifs
      · exact IeeeRest.kept_lit (by norm_num) (by norm_num) (by norm_num)
      · exact IeeeRest.kept_lit (by norm_num) (by norm_num) (by norm_num)⟩
  have h0 : EqFld p46t.dims (mR.fld .state) (restF (fun k => if k = 0 then lit 10 else lit 13) fun l _ k => lit 7) := by
    rw [hs]; exact EqFld.refl _ _
  have ht : (SWModel.ofParams prm).en_tdiff = true := by
    rw [hp]
    show Scalar.lt (lit 0) (lit 1 : Ieee 0 false) = true
    rw [IeeeRest.lit_num (by norm_num), IeeeRest.lit_num (by norm_num)]
    show decide (((0 : ℤ) : ℝ) < ((1 : ℤ) : ℝ)) = true
    simp
  have hex : ∃ m1, Exec p46t.dims (Stepper.rk4.ctor p46t.dims ++ Stepper.rk4.run p46t.dims
      ⟨if simd then simdKernels p46t.dims.vl p46t.dims.vl else defaultKernels p46t.dims.vl, true⟩
      (SWModel.ofParams prm) (List.replicate 1000 (lit 0, lit 1 / lit 3))) mR m1 := by
    cases simd
    · obtain ⟨m1, he, -⟩ := ((C40_safe_deterministic hd hc hn true).2.2 .rk4
        (List.replicate 1000 (lit 0, lit 1 / lit 3))).2
      exact ⟨m1, he⟩
    · obtain ⟨m1, h⟩ := (C54_simd_safe_deterministic hd hc hn).2 .rk4 (List.replicate 1000 (lit 0, lit 1 / lit 3))
      exact ⟨m1, ((h true).2 m1).2 rfl⟩
  obtain ⟨m1, he⟩ := hex
  exact ⟨mR, m1, prm, hr, ht, st, hk, h0, he, (C101_rest_float IeeeRest.zeroLaws hd hc hn (by cases simd <;> simp) he st
    (fun _ _ _ => IeeeRest.stored_lit (by norm_num)) h0).2.1⟩

/-- Without overflow: thickness 10, gravity 10, rotation and viscosity on 24 cells.  There is a step size such that in
every binary arithmetic of high enough precision, contracting or not, runs of any number of steps up to time 100 exist
and leave thickness 10 and velocity 0 exactly. -/
example (fma : Bool) : ∃ N0 : ℕ, ∀ N ≥ N0, ∃ b0 : ℕ, ∀ b ≥ b0, ∃ (mR m1 : Mem (Ieee b fma)) (dt : Ieee b fma),
    EqFld p46.dims (mR.fld .state) (restF (fun _ => lit 10) fun _ _ _ => lit 7) ∧ dt.val = 100 / N ∧
    Exec p46.dims (Stepper.rk4.ctor p46.dims ++ Stepper.rk4.run p46.dims ⟨defaultKernels p46.dims.vl, true⟩
      (SWModel.ofParams ⟨lit 1, lit 10, lit 1, lit 0, lit 0, lit 0, false, false⟩)
      (List.replicate N (lit 0, dt))) mR m1 ∧
    (∀ c k, 0 ≤ c → c < p46.dims.ncells → 0 ≤ k → k < p46.dims.nlayers → m1.real (.h_cell .state) 0 c k = lit 10) ∧
    ∀ e k, 0 ≤ e → e < p46.dims.nedges → 0 ≤ k → k < p46.dims.nlayers → m1.real (.vn_edge .state) 0 e k = lit 0 := by
  obtain ⟨m, hr, -, -⟩ := exists_ready p46_valid (2 : ℝ) ⟨1, 10, 1, 0, 0, 0, false, false⟩ zeroFld zeroFld
  obtain ⟨τ, τ0, key⟩ := C101_rest_exact p46_run two_pos (m := m) rfl rfl hr (H := fun _ => 10) (fun _ => by norm_num)
    (fun _ _ => 7) 100
  obtain ⟨N0, hN0⟩ := exists_nat_gt (100 / τ)
  refine ⟨max N0 1, fun N hN => ?_⟩
  have hN1 : (N0 : ℝ) ≤ N := by exact_mod_cast (le_max_left _ _).trans hN
  have Np1 : (1 : ℝ) ≤ N := by exact_mod_cast (le_max_right _ _).trans hN
  have Np : (0 : ℝ) < N := by linarith
  obtain ⟨b0, hb0⟩ := exists_pow_lt_of_lt_one (show (0 : ℝ) < τ * (100 / N) by positivity)
    (show (2⁻¹ : ℝ) < 1 by norm_num)
  refine ⟨b0, fun b hb => ?_⟩
  have hε : 4 * prec b ≤ τ * (100 / N) := by
    have h1 : (2⁻¹ : ℝ) ^ (53 + b) ≤ 2⁻¹ ^ (b0 + 2) := pow_le_pow_of_le_one (by norm_num) (by norm_num) (by omega)
    have h2 : (2⁻¹ : ℝ) ^ (b0 + 2) = 2⁻¹ ^ b0 / 4 := by rw [pow_add]; norm_num; ring
    rw [prec]
    linarith
  have h128 : (128 : ℝ) ≤ huge b := (show (128 : ℝ) = 2 ^ 7 by norm_num).le.trans
    (pow_le_pow_right₀ (by norm_num) (by omega))
  have isn : ∀ n : ℤ, |n| ≤ 16 → IsNum Ieee.Fin Ieee.val (lit n : Ieee b fma) n := fun n hn => by
    rw [IeeeRest.lit_num (hn.trans_lt (by norm_num))]
    refine ⟨Ieee.fin_num ?_, rfl⟩
    have : |(n : ℝ)| ≤ 16 := by exact_mod_cast hn
    linarith
  have z : IsNum Ieee.Fin Ieee.val (lit 0 : Ieee b fma) 0 := by simpa using isn 0 (by norm_num)
  have o : IsNum Ieee.Fin Ieee.val (lit 1 : Ieee b fma) 1 := by simpa using isn 1 (by norm_num)
  have t : IsNum Ieee.Fin Ieee.val (lit 10 : Ieee b fma) 10 := by simpa using isn 10 (by norm_num)
  obtain ⟨mR, hrR, hsR, -⟩ := exists_ready p46_valid (lit 2 : Ieee b fma)
    ⟨lit 1, lit 10, lit 1, lit 0, lit 0, lit 0, false, false⟩
    (restF (fun _ => lit 10) fun _ _ _ => lit 7) zeroFld
  obtain ⟨hd, hc⟩ := ready_ok p46_run hrR
  obtain ⟨m1, he, -⟩ := ((C40_safe_deterministic hd hc (noHook_ofParams
    (⟨lit 1, lit 10, lit 1, lit 0, lit 0, lit 0, false, false⟩ : Params (Ieee b fma))) true).2.2 .rk4
    (List.replicate N (lit 0, Ieee.num b fma (100 / N)))).2
  have h0 : EqFld p46.dims (mR.fld .state) (restF (fun _ => lit 10) fun _ _ _ => lit 7) := by
    rw [hsR]; exact EqFld.refl _ _
  have eN : (N : ℝ) * (100 / N) = 100 := mul_div_cancel₀ _ Np.ne'
  have := key (Ieee b fma) Ieee.Fin Ieee.val _ (Ieee.machine b fma) _ IeeeRest.zeroLaws
    (fun _ => IeeeRest.finite_of_fin) (lit 2) _ mR (by simpa using isn 2 (by norm_num))
    ⟨o, t, o, z, z, z, rfl, rfl⟩ hrR (fun _ => lit 10) (fun _ _ => lit 7)
    (fun _ => ⟨IeeeRest.stored_lit (by norm_num), t⟩)
    (fun _ _ => ⟨IeeeRest.stored_lit (by norm_num), by simpa using isn 7 (by norm_num)⟩) h0 .rk4 (.inl rfl)
    (Ieee.num b fma (100 / N)) (List.replicate N (lit 0, Ieee.num b fma (100 / N))) true m1
    (Ieee.fin_num (by
      rw [abs_of_pos (by positivity)]
      have : 100 / (N : ℝ) ≤ 100 := div_le_self (by norm_num) Np1
      linarith))
    (by rw [Ieee.val_num]; positivity)
    (by
      rw [Ieee.val_num, div_le_iff₀ Np, mul_comm, ← div_le_iff₀ τ0]; linarith)
    (by rw [Ieee.val_num]; exact hε)
    (fun q hq => by rw [List.eq_of_mem_replicate hq])
    (by rw [List.length_replicate, Ieee.val_num, eN])
    (by simp [defect, τ0.le]) he
  exact ⟨mR, m1, _, h0, rfl, he, this.1, this.2.1⟩

end
end Props
end Omega
