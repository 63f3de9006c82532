import Verif.Props.Stepping

/-!
# C32 (linearity of tracers), C34 (the low-storage stepper remembers NaN)
-/

set_option linter.unusedVariables false
set_option linter.unusedSectionVars false

namespace Omega
namespace Props

open Prog Model Refine

/-! ### C32 -/

section

variable (M : Mesh ℝ) (a b : ℝ) (x y z : Int → ℝ)

theorem ntr_linear (h : Int → ℝ) (hz : ∀ c, z c = a * x c + b * y c) (c : Int) :
    Fn.ntr z h c = a * Fn.ntr x h c + b * Fn.ntr y h c := by
  simp only [Fn.ntr, hz]; ring

theorem thadv_linear (v hf : Int → ℝ) (hz : ∀ c, z c = a * x c + b * y c) (c : Int) :
    Fn.thadv M v z hf c = a * Fn.thadv M v x hf c + b * Fn.thadv M v y hf c := by
  simp only [Fn.thadv, foldI_diff, hz]
  rw [mul_neg, mul_neg, Finset.mul_sum, Finset.mul_sum, ← neg_add, ← Finset.sum_add_distrib]
  congr 1
  exact Finset.sum_congr rfl fun j _ => by ring

theorem tdiff_linear (g : ℝ) (hm : Int → ℝ) (hz : ∀ c, z c = a * x c + b * y c) (c : Int) :
    Fn.tdiff M g z hm c = a * Fn.tdiff M g x hm c + b * Fn.tdiff M g y hm c := by
  simp only [Fn.tdiff, foldI_sum, hz]
  rw [Finset.mul_sum, Finset.mul_sum, ← Finset.sum_add_distrib]
  exact Finset.sum_congr rfl fun j _ => by ring

theorem tdel2_linear (hm : Int → ℝ) (hz : ∀ c, z c = a * x c + b * y c) (c : Int) :
    Fn.tdel2 M z hm c = a * Fn.tdel2 M x hm c + b * Fn.tdel2 M y hm c := by
  simp only [Fn.tdel2, foldI_sum, hz]
  rw [Finset.mul_sum, Finset.mul_sum, ← Finset.sum_add_distrib]
  exact Finset.sum_congr rfl fun j _ => by ring

theorem thyper_linear (g : ℝ) (hz : ∀ c, z c = a * x c + b * y c) (c : Int) :
    Fn.thyper M g z c = a * Fn.thyper M g x c + b * Fn.thyper M g y c := by
  simp only [Fn.thyper, foldI_diff, hz]
  rw [mul_neg, mul_neg, Finset.mul_sum, Finset.mul_sum, ← neg_add, ← Finset.sum_add_distrib]
  congr 1
  exact Finset.sum_congr rfl fun j _ => by ring

end

/-- Tracer `l3` is `a` times tracer `l1` plus `b` times tracer `l2`. -/
def LinTr (a b : ℝ) (l1 l2 l3 : Int) (x : Fld ℝ) : Prop :=
  ∀ c k, x.tr l3 c k = a * x.tr l1 c k + b * x.tr l2 c k

theorem linTr_tend {S : Sys ℝ} (hF : S.F = scalarF) {a b : ℝ} {l1 l2 l3 : Int} {mode : AddMode}
    {t : ℝ} {o s : Fld ℝ} (ho : LinTr a b l1 l2 l3 o) (hs : LinTr a b l1 l2 l3 s) :
    LinTr a b l1 l2 l3 (S.tend mode t o s) := by
  intro c k
  have hn : ∀ c, S.ntrC s l3 k c = a * S.ntrC s l1 k c + b * S.ntrC s l2 k c := by
    simp only [Sys.ntrC, hF, scalarF]
    exact ntr_linear a b _ _ _ _ fun c => hs c k
  have h2 : ∀ c, S.t2C s l3 k c = a * S.t2C s l1 k c + b * S.t2C s l2 k c := by
    simp only [Sys.t2C, hF, scalarF]
    exact tdel2_linear S.M a b _ _ _ _ hn
  have e1 := thadv_linear S.M a b _ _ _ (Sys.vk s k) (S.flux s k) hn c
  have e2 := tdiff_linear S.M a b _ _ _ S.sw.prm.eddy_diff2 (S.flux s k) hn c
  have e3 := thyper_linear S.M a b _ _ _ S.sw.prm.eddy_diff4 h2 c
  simp only [Sys.tend, Sys.termsTr, Sys.start, hF, scalarF, e1, e2, e3, ho c k]
  cases mode <;> simp only [reduceCtorEq, decide_false, decide_true, Bool.false_eq_true, if_false,
    if_true, lit_real, Int.cast_zero] <;> split_ifs <;> ring

theorem linTr_rel {S : Sys ℝ} (hF : S.F = scalarF) (a b : ℝ) (l1 l2 l3 : Int) :
    StepRel S S (fun x _ => LinTr a b l1 l2 l3 x) (fun x _ => LinTr a b l1 l2 l3 x) := by
  refine StepRel.of_inv (fun h1 h2 => linTr_tend hF h1 h2) ?_ ?_
  · intro x c h i k
    simp only [Fld.map, h i k]; ring
  · intro x y c h h' i k
    simp only [Fld.axpy, Fld.zip, h i k, h' i k]; ring

/-- Tracers are linear: if one tracer is a linear combination of two others before, the same linear
combination holds for its tendency and after any number of steps. -/
theorem C32_tracers_linear {d : Dims} {m : Mem ℝ} (hd : DimsOK d) (hc : ConnOK d m)
    {sw : SWModel ℝ} (hn : sw.NoHook) (split : Bool) (a b : ℝ) {l1 l2 l3 : Int}
    (g1 : 0 ≤ l1 ∧ l1 < d.ntracers) (g2 : 0 ≤ l2 ∧ l2 < d.ntracers) (g3 : 0 ≤ l3 ∧ l3 < d.ntracers)
    (hne : l3 ≠ l1 ∧ l3 ≠ l2)
    (hs : ∀ c k, 0 ≤ c → c < d.ncells → 0 ≤ k → k < d.nlayers →
      (m.fld .state).tr l3 c k = a * (m.fld .state).tr l1 c k + b * (m.fld .state).tr l2 c k) :
    (∀ t m1, Exec d (compute_tendency d ⟨defaultKernels d.vl, split⟩ sw .replace .tend .state t) m m1 →
      ∀ c k, 0 ≤ c → c < d.ncells → 0 ≤ k → k < d.nlayers →
      (m1.fld .tend).tr l3 c k = a * (m1.fld .tend).tr l1 c k + b * (m1.fld .tend).tr l2 c k) ∧
    (∀ (stp : Stepper) sched m1,
      Exec d (stp.ctor d ++ stp.run d ⟨defaultKernels d.vl, split⟩ sw sched) m m1 →
      ∀ c k, 0 ≤ c → c < d.ncells → 0 ≤ k → k < d.nlayers →
      (m1.fld .state).tr l3 c k = a * (m1.fld .state).tr l1 c k + b * (m1.fld .state).tr l2 c k) := by
  have hS := genSetup hd hc (hookOK_noHook hn d m)
  -- the state with the relation imposed at all indices
  let s : Fld ℝ := ⟨(m.fld .state).h, (m.fld .state).vn, fun l c k =>
    if l = l3 then a * (m.fld .state).tr l1 c k + b * (m.fld .state).tr l2 c k
    else (m.fld .state).tr l c k⟩
  have hl : LinTr a b l1 l2 l3 s := by
    intro c k
    simp [s, Ne.symm hne.1, Ne.symm hne.2]
  have he : EqFld d (m.fld .state) s := by
    refine ⟨fun _ _ _ _ _ _ => rfl, fun _ _ _ _ _ _ => rfl, ?_⟩
    intro l c k l0 l1' c0 c1 k0 k1
    by_cases h : l = l3
    · subst h; simp [s, hs c k c0 c1 k0 k1]
    · simp [s, h]
  have hz : LinTr a b l1 l2 l3 (zeroFld : Fld ℝ) := by intro c k; simp [zeroFld]
  constructor
  · intro t m1 hx c k c0 c1 k0 k1
    obtain ⟨-, v⟩ := hS.tendency (by decide) hx
    have h1 := tend_local hS.sys he .replace t (o := zeroFld) (o' := zeroFld) (EqFld.refl _ _)
    have h0 := tend_replace (genSys d sw noHook m) t (m.fld .tend) zeroFld (m.fld .state)
    have h2 := linTr_tend (S := genSys d sw noHook m) rfl (mode := .replace) (t := t) hz hl c k
    have key : ∀ l, 0 ≤ l ∧ l < d.ntracers → (m1.fld .tend).tr l c k =
        ((genSys d sw noHook m).tend .replace t zeroFld s).tr l c k := by
      intro l hl
      rw [v.tr l c k hl.1 hl.2 c0 c1 k0 k1, h0.2.2, h1.tr l c k hl.1 hl.2 c0 c1 k0 k1]
    rw [key _ g1, key _ g2, key _ g3, h2]
  · intro stp sched m1 hx c k c0 c1 k0 k1
    obtain ⟨-, -, v⟩ := hS.newRun hx
    have h1 := (run_local hS.sys stp sched (p := (zeroFld, m.fld .state)) (q := (zeroFld, s))
      ⟨EqFld.refl _ _, he⟩).2
    have h2 := ((linTr_rel (S := genSys d sw noHook m) rfl a b l1 l2 l3).run stp sched
      (p := (zeroFld, s)) (q := (zeroFld, s)) hz hl).2 c k
    have key : ∀ l, 0 ≤ l ∧ l < d.ntracers → (m1.fld .state).tr l c k =
        ((genSys d sw noHook m).run stp sched (zeroFld, s)).2.tr l c k := by
      intro l hl
      rw [v.tr l c k hl.1 hl.2 c0 c1 k0 k1, h1.tr l c k hl.1 hl.2 c0 c1 k0 k1]
    rw [key _ g1, key _ g2, key _ g3, h2]

/-- three tracers, the third a non-trivial combination -/
example (dc : ℝ) (prm : Params ℝ) : ∃ m : Mem ℝ, DimsOK p46t.dims ∧ ConnOK p46t.dims m ∧
    (SWModel.ofParams prm).NoHook ∧ (∀ c k, (m.fld .state).tr 2 c k =
      2 * (m.fld .state).tr 0 c k + (-3) * (m.fld .state).tr 1 c k) ∧
    (m.fld .state).tr 2 1 0 = 2 := by
  obtain ⟨m, h, h1, h2⟩ := exists_ready p46t_run.toValid dc prm
    ⟨fun c _ => 1 + c, fun e _ => e, fun l c _ => if l = 0 then (c : ℝ) else if l = 1 then (c : ℝ) ^ 2 - 1
      else 2 * c + (-3) * (c ^ 2 - 1)⟩ zeroFld
  refine ⟨m, (ready_ok p46t_run h).1, (ready_ok p46t_run h).2, noHook_ofParams prm, ?_, ?_⟩
  · intro c k; rw [h1]; simp
  · rw [h1]; norm_num

/-! ### C34: NaN -/

/-- Exact arithmetic with one absorbing exceptional value `none`, which division by zero and square
roots of negative numbers produce and which, as a NaN, compares false. -/
noncomputable instance instScalarNaN : Scalar (Option ℝ) where
  add x y := x.bind fun a => y.bind fun b => some (a + b)
  sub x y := x.bind fun a => y.bind fun b => some (a - b)
  mul x y := x.bind fun a => y.bind fun b => some (a * b)
  div x y := x.bind fun a => y.bind fun b => open Classical in if b = 0 then none else some (a / b)
  neg x := x.map fun a => -a
  lit n := some n
  sqrt x := x.bind fun a => open Classical in if a < 0 then none else some (Real.sqrt a)
  sin x := x.map Real.sin
  cos x := x.map Real.cos
  pi := some Real.pi
  lt x y := match x, y with
    | some a, some b => @decide (a < b) (Classical.dec _)
    | _, _ => false

section

theorem nan_mul (x : Option ℝ) : none * x = none := rfl
theorem nan_add (x : Option ℝ) : none + x = none := rfl
theorem nan_sub (x : Option ℝ) : none - x = none := rfl
theorem mul_nan (x : Option ℝ) : x * none = none := by cases x <;> rfl
theorem add_nan (x : Option ℝ) : x + none = none := by cases x <;> rfl
theorem some_add (a b : ℝ) : (some a + some b : Option ℝ) = some (a + b) := rfl
theorem some_sub (a b : ℝ) : (some a - some b : Option ℝ) = some (a - b) := rfl
theorem some_mul (a b : ℝ) : (some a * some b : Option ℝ) = some (a * b) := rfl
theorem some_div (a : ℝ) {b : ℝ} (hb : b ≠ 0) : (some a / some b : Option ℝ) = some (a / b) := by
  show (if b = 0 then none else some (a / b)) = _
  rw [if_neg hb]
theorem some_sqrt {a : ℝ} (ha : 0 ≤ a) : Scalar.sqrt (some a : Option ℝ) = some (Real.sqrt a) := by
  show (if a < 0 then none else some (Real.sqrt a)) = _
  rw [if_neg (not_lt.mpr ha)]
theorem some_lit (n : Int) : (lit n : Option ℝ) = some (n : ℝ) := rfl

end

/-- Whatever the model, a NaN in the thickness work array survives every stage and reaches the
state. -/
theorem nan_stage (S : Sys (Option ℝ)) (hH : S.H = noHook) (C : Coef (Option ℝ)) (t dt : Option ℝ)
    (i : Nat) (p : Fld (Option ℝ) × Fld (Option ℝ)) {c k : Int} (h : p.1.h c k = none) :
    (S.lsrkStage C t dt i p).1.h c k = none ∧ (S.lsrkStage C t dt i p).2.h c k = none := by
  have h1 : (S.lsrkStage C t dt i p).1.h c k = none := by
    simp only [Sys.lsrkStage, Sys.tend, hH, noHook, Fld.map, h, nan_mul, Sys.termsH, Sys.start,
      reduceCtorEq, decide_false, Bool.false_eq_true, if_false, nan_add]
    split_ifs <;> rfl
  refine ⟨h1, ?_⟩
  have : (S.lsrkStage C t dt i p).2.h c k =
      p.2.h c k + dt * C.b i * (S.lsrkStage C t dt i p).1.h c k := rfl
  rw [this, h1, mul_nan, add_nan]

theorem finite_fold (n : Int) (g : Int → Option ℝ) (hg : ∀ j, 0 ≤ j → j < n → g j ≠ none) :
    foldI n (lit 0) (fun j a => a - g j) ≠ none := by
  rcases le_or_gt n 0 with hn | hn
  · have : n.toNat = 0 := by omega
    simp [foldI, this, foldFrom, some_lit]
  · obtain ⟨k, rfl⟩ : ∃ k : Nat, n = k := ⟨n.toNat, by omega⟩
    clear hn
    induction k with
    | zero => simp [foldI_zero, some_lit]
    | succ k ih =>
      push_cast
      rw [foldI_nat_succ]
      have h1 := ih fun j h0 h1 => hg j h0 (by push_cast; omega)
      have h2 := hg k (by omega) (by push_cast; omega)
      obtain ⟨x, hx⟩ := Option.ne_none_iff_exists'.mp h1
      obtain ⟨y, hy⟩ := Option.ne_none_iff_exists'.mp h2
      rw [hx, hy, some_sub]
      simp

/-- With NaN the low-storage stepper does have a memory: on every mesh there are two memories with
the same, everywhere finite, state that differ only in the stepper's work array and end one step in
different states: one has a finite thickness where the other has NaN. -/
theorem C34_lsrk_remembers_nan {p : MeshParams} (hv : RunValid p) (hl : 1 ≤ p.dims.nlayers)
    (split : Bool) :
    ∃ (prm : Params (Option ℝ)) (m m' m1 m1' : Mem (Option ℝ)),
      Ready p (some 1) prm m ∧ Ready p (some 1) prm m' ∧ m'.fld .state = m.fld .state ∧
      (∀ c k, (m.fld .state).h c k ≠ none) ∧ (∀ e k, (m.fld .state).vn e k ≠ none) ∧
      prm.disable_h = false ∧
      Exec p.dims ((Stepper.lsrk 1).run p.dims ⟨defaultKernels p.dims.vl, split⟩
        (SWModel.ofParams prm) [(some 0, some 1)]) m m1 ∧
      Exec p.dims ((Stepper.lsrk 1).run p.dims ⟨defaultKernels p.dims.vl, split⟩
        (SWModel.ofParams prm) [(some 0, some 1)]) m' m1' ∧
      (m1.fld .state).h 0 0 ≠ none ∧ (m1'.fld .state).h 0 0 = none := by
  let prm : Params (Option ℝ) := ⟨some 1, some 9, some 0, some 0, some 0, some 0, false, false⟩
  obtain ⟨m, hr, h1, h2⟩ := exists_ready hv.toValid (some 1 : Option ℝ) prm
    ⟨fun c _ => some (1 + c), fun e _ => some e, fun _ _ _ => some 3⟩ zeroFld
  let m' := setFld m .tend ⟨fun _ _ => none, fun _ _ => none, fun _ _ _ => none⟩
  have hst : Static m' m := setFld_static _ _ _
  have hr' : Ready p (some 1) prm m' := hr.static hst
  have hfs : m'.fld .state = m.fld .state :=
    fld_congr fun b hb => (setFld_agree m .tend _).real b (inState_disj (by decide) hb)
  obtain ⟨hd, hc⟩ := ready_ok hv hr
  have hS := genSetup hd hc (hookOK_noHook (noHook_ofParams prm) p.dims m)
  have hS' := hS.static hst
  obtain ⟨m1, r, -, -, w⟩ := run_runs hS (.lsrk 1) [(some 0, some 1)]
  obtain ⟨m1', r', -, -, w'⟩ := run_runs hS' (.lsrk 1) [(some 0, some 1)]
  have hc0 : Hex.IsCell p.nx p.ny 0 := by
    have := hv.nx_pos; have := hv.ny_pos
    exact ⟨le_rfl, by positivity⟩
  have hc0' : (0 : Int) < p.dims.ncells := hc0.2
  refine ⟨prm, m, m', m1, m1', hr, hr', hfs, fun c k => by rw [h1]; simp, fun e k => by rw [h1]; simp,
    rfl, (r split).exec, (r' split).exec, ?_, ?_⟩
  · rw [w.h 0 0 le_rfl hc0' le_rfl (by omega), h1, h2]
    have hm := (hr.hex hv.toValid).1
    have h3 : Real.sqrt 3 ≠ 0 := by positivity
    have key : (Fn.hadv m.mesh (fun e => some (e : ℝ)) (Fn.hmean m.mesh fun c => some (1 + (c : ℝ))) 0
        : Option ℝ) ≠ none := by
      refine finite_fold _ _ ?_
      intro j j0 j1
      have j1' : j < 6 := by
        have : m.mesh.neoc 0 = 6 := hm.neoc 0 hc0
        omega
      have he : m.mesh.eoc 0 j = Hex.E p.nx p.ny 0 j := hm.eoc 0 hc0 j j0 j1'
      have hE := Hex.E_range hv.nx_pos hc0 j j0 j1'
      have e1 : m.mesh.dv (m.mesh.eoc 0 j) = some (1 * Real.sqrt 3 / 3) := by
        rw [he]
        have := hm.dv_edge _ hE.1 hE.2
        rw [some_lit, some_sqrt (by norm_num), some_mul, some_div _ (by norm_num)] at this
        simpa [Mem.mesh] using this
      have e2 : m.mesh.areaCell 0 = some (1 * 1 * Real.sqrt 3 / 2) := by
        have := hm.area_cell 0 hc0
        rw [some_lit, some_lit, some_sqrt (by norm_num), some_mul, some_mul,
          some_div _ (by norm_num)] at this
        simpa [Mem.mesh] using this
      have e3 : ∃ s, m.mesh.signC 0 j = some s := by
        have := hm.sign_cell 0 hc0 j j0 j1'
        refine ⟨if Hex.coe p.nx p.ny (Hex.E p.nx p.ny 0 j) 0 = 0 then ((1 : ℤ) : ℝ) else
          ((-1 : ℤ) : ℝ), this.trans ?_⟩
        rw [some_lit, some_lit, ← apply_ite some]
      obtain ⟨s, e3⟩ := e3
      have e4 : ∀ e, ∃ s, Fn.hmean m.mesh (fun c => some (1 + (c : ℝ))) e = some s := by
        intro e
        refine ⟨((1 : ℤ) : ℝ) / ((2 : ℤ) : ℝ) *
          (1 + (m.mesh.coe e 0 : ℝ) + (1 + (m.mesh.coe e 1 : ℝ))), ?_⟩
        simp only [Fn.hmean, half, some_lit]
        rw [some_div _ (by norm_num), some_add, some_mul]
      obtain ⟨s', e4⟩ := e4 (m.mesh.eoc 0 j)
      rw [e1, e2, e3, e4, some_lit, some_div _ (by positivity)]
      simp [some_mul]
    obtain ⟨x, hx⟩ := Option.ne_none_iff_exists'.mp key
    have hrun : ((genSys p.dims (SWModel.ofParams prm) noHook m).run (.lsrk 1) [(some 0, some 1)]
        (zeroFld, ⟨fun c _ => some (1 + c), fun e _ => some e, fun _ _ _ => some 3⟩)).2.h 0 0 =
        some (1 + ((0 : ℤ) : ℝ)) + some 1 * some 1 *
          (some 0 * some 0 +
            Fn.hadv m.mesh (fun e => some (e : ℝ)) (Fn.hmean m.mesh fun c => some (1 + (c : ℝ))) 0) := by
      simp [Sys.run, Sys.step, Sys.lsrkStep, Sys.lsrkStage, lsrkCoef, nth, Fld.axpy, Fld.zip,
        Sys.tend, genSys, SWModel.ofParams, prm, noHook, Sys.termsH, Sys.start, Fld.map, zeroFld,
        some_lit, scalarF, Sys.flux]
      rfl
    rw [hrun, hx]
    simp [some_mul, some_add]
  · rw [w'.h 0 0 le_rfl hc0' le_rfl (by omega)]
    have hn : (m'.fld .tend).h 0 0 = none := by rw [setFld_fld]
    have := (nan_stage (genSys p.dims (SWModel.ofParams prm) noHook m) rfl (lsrkCoef 1) (some 0)
      (some 1) 0 (m'.fld .tend, m'.fld .state) hn).2
    exact this

example : ∃ p : MeshParams, RunValid p ∧ 1 ≤ p.dims.nlayers :=
  ⟨p46, p46_run, by rw [p46_layers]; norm_num⟩

end Props
end Omega
