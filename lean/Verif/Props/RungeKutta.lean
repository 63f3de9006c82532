import Verif.Props.Stepping
import Mathlib.Algebra.BigOperators.Fin
import Mathlib.Algebra.Order.BigOperators.Group.Finset

/-!
# C36, C37: the steppers are explicit Runge-Kutta methods of order four

The specification here is the general explicit Runge-Kutta step (`IsRKStep`) and the order conditions
of Butcher (`OrderFour`); both are independent of the stepper code.
-/

set_option linter.unusedVariables false
set_option linter.unusedSectionVars false

namespace Omega
namespace Props

open Prog Model Refine

noncomputable section

/-- `y + Σ_{j < n} w j • k j` -/
def comb (y : Fld ℝ) (w : ℕ → ℝ) (k : ℕ → Fld ℝ) (n : ℕ) : Fld ℝ :=
  ⟨fun i l => y.h i l + ∑ j ∈ Finset.range n, w j * (k j).h i l,
   fun i l => y.vn i l + ∑ j ∈ Finset.range n, w j * (k j).vn i l,
   fun q i l => y.tr q i l + ∑ j ∈ Finset.range n, w j * (k j).tr q i l⟩

/-- The step from `m` to the state `y'` is one step of the explicit `s`-stage Runge-Kutta method with
matrix `A`, weights `b` and abscissae `c`: there are stage tendencies `k i`, each the tendency at time
`t + c i dt` of the stage state, which combine to `y'`. -/
def IsRKStep (d : Dims) (B : Build ℝ) (sw : SWModel ℝ) (m : Mem ℝ) (s : ℕ) (A : ℕ → ℕ → ℝ)
    (b c : ℕ → ℝ) (t dt : ℝ) (y' : Fld ℝ) : Prop :=
  ∃ k : ℕ → Fld ℝ,
    (∀ i < s, IsTend d B sw m (t + c i * dt) (comb (m.fld .state) (fun j => dt * A i j) k i) (k i)) ∧
    EqFld d y' (comb (m.fld .state) (fun j => dt * b j) k s)

/-- Row sums and the eight order conditions through order four, each up to `ε`. -/
structure OrderFour (s : ℕ) (A : ℕ → ℕ → ℝ) (b c : ℕ → ℝ) (ε : ℝ) : Prop where
  rows : ∀ i < s, |c i - ∑ j ∈ Finset.range i, A i j| ≤ ε
  o1 : |∑ i ∈ Finset.range s, b i - 1| ≤ ε
  o2 : |∑ i ∈ Finset.range s, b i * c i - 1 / 2| ≤ ε
  o3a : |∑ i ∈ Finset.range s, b i * c i ^ 2 - 1 / 3| ≤ ε
  o3b : |∑ i ∈ Finset.range s, ∑ j ∈ Finset.range i, b i * A i j * c j - 1 / 6| ≤ ε
  o4a : |∑ i ∈ Finset.range s, b i * c i ^ 3 - 1 / 4| ≤ ε
  o4b : |∑ i ∈ Finset.range s, ∑ j ∈ Finset.range i, b i * c i * A i j * c j - 1 / 8| ≤ ε
  o4c : |∑ i ∈ Finset.range s, ∑ j ∈ Finset.range i, b i * A i j * c j ^ 2 - 1 / 12| ≤ ε
  o4d : |∑ i ∈ Finset.range s, ∑ j ∈ Finset.range i, ∑ l ∈ Finset.range j,
    b i * A i j * A j l * c l - 1 / 24| ≤ ε

/-- User forcing that adds a function of position and time. -/
def HookAdds (H : HookFn ℝ) : Prop :=
  ∃ fh fv : ℝ → Int → Int → ℝ, (∀ t i k v, H.h t i k v = v + fh t i k) ∧
    ∀ t i k v, H.vn t i k v = v + fv t i k

theorem hookAdds_noHook : HookAdds noHook :=
  ⟨fun _ _ _ => 0, fun _ _ _ => 0, fun _ _ _ _ => (add_zero _).symm,
    fun _ _ _ _ => (add_zero _).symm⟩

theorem hookAdds_force (fh fx fy : ℝ → ℝ → ℝ → ℝ) (m : Mem ℝ) : HookAdds (forceFn fh fx fy m) :=
  ⟨_, _, fun _ _ _ _ => rfl, fun _ _ _ _ => rfl⟩

theorem tend_increment_force (S : Sys ℝ) (hH : HookAdds S.H) (h1 : S.sw.prm.disable_h = false)
    (h2 : S.sw.prm.disable_vn = false) (t : ℝ) (o s : Fld ℝ) :
    S.tend .increment t o s = plus o 1 (S.tend .replace t zeroFld s) := by
  obtain ⟨fh, fv, hh, hv⟩ := hH
  unfold plus
  unfold Sys.tend
  congr 1
  · funext c k
    simp only [h1, hh, Sys.termsH, Sys.start]
    simp only [reduceCtorEq, decide_false, Bool.false_eq_true, if_false, decide_true, if_true,
      lit_real, Int.cast_zero]
    split_ifs <;> ring
  · funext c k
    simp only [h2, hv, Sys.termsVn, Sys.start]
    simp only [reduceCtorEq, decide_false, Bool.false_eq_true, if_false, decide_true, if_true,
      lit_real, Int.cast_zero]
    split_ifs <;> ring
  · funext l c k
    simp only [Sys.termsTr, Sys.start]
    simp only [reduceCtorEq, decide_false, Bool.false_eq_true, if_false, decide_true, if_true,
      lit_real, Int.cast_zero]
    split_ifs <;> ring

/-- the zero field -/
def nil0 : Fld ℝ := ⟨fun _ _ => 0, fun _ _ => 0, fun _ _ _ => 0⟩

/-- matrix and weights of a low-storage method: row `i` is what stages `0 .. i-1` add to the state -/
def lsA (a b : ℕ → ℝ) (i j : ℕ) : ℝ :=
  ∑ n ∈ Finset.range i, if j ≤ n then b n * ∏ l ∈ Finset.range (n - j), a (j + 1 + l) else 0

theorem lsrk_unroll (S : Sys ℝ) (hH : HookAdds S.H) (h1 : S.sw.prm.disable_h = false)
    (h2 : S.sw.prm.disable_vn = false) (C : Coef ℝ) (ha : C.a 0 = 0) (t dt : ℝ) (o y : Fld ℝ) :
    ∃ k : ℕ → Fld ℝ, ∀ n,
      (k n = S.tend .replace (t + C.c n * dt) zeroFld (comb y (fun j => dt * lsA C.a C.b n j) k n)) ∧
      ((List.range n).foldl (fun p i => S.lsrkStage C t dt i p) (o, y)).2 =
        comb y (fun j => dt * lsA C.a C.b n j) k n ∧
      (0 < n → ((List.range n).foldl (fun p i => S.lsrkStage C t dt i p) (o, y)).1 =
        comb nil0 (fun j => ∏ l ∈ Finset.range (n - 1 - j), C.a (j + 1 + l)) k n) := by
  set st : ℕ → Fld ℝ × Fld ℝ := fun n =>
    (List.range n).foldl (fun p i => S.lsrkStage C t dt i p) (o, y) with hst
  have hsucc : ∀ n, st (n + 1) = S.lsrkStage C t dt n (st n) := fun n => by
    simp [hst, List.range_succ, List.foldl_append]
  refine ⟨fun n => S.tend .replace (t + C.c n * dt) zeroFld (st n).2, fun n => ?_⟩
  induction n with
  | zero =>
    refine ⟨?_, ?_, fun h => absurd h (lt_irrefl 0)⟩
    · simp [comb, hst]
    · simp [comb]
  | succ n ih =>
    obtain ⟨-, e2, e3⟩ := ih
    set k : ℕ → Fld ℝ := fun n => S.tend .replace (t + C.c n * dt) zeroFld (st n).2 with hk
    have hstage : st (n + 1) =
        (plus ((st n).1.map fun v => v * C.a n) 1 (k n),
          (st n).2.axpy (dt * C.b n) (plus ((st n).1.map fun v => v * C.a n) 1 (k n))) := by
      rw [hsucc]
      simp only [Sys.lsrkStage, tend_increment_force S hH h1 h2, hk]
    have hG : (st (n + 1)).1 =
        comb nil0 (fun j => ∏ l ∈ Finset.range (n + 1 - 1 - j), C.a (j + 1 + l)) k (n + 1) := by
      rw [hstage]
      have key : ∀ (f : ℕ → ℝ) (g : ℝ), (0 < n → g = 0 + ∑ j ∈ Finset.range n,
          (∏ l ∈ Finset.range (n - 1 - j), C.a (j + 1 + l)) * f j) →
          g * C.a n + 1 * f n = 0 + ∑ j ∈ Finset.range (n + 1),
            (∏ l ∈ Finset.range (n - j), C.a (j + 1 + l)) * f j := by
        intro f g hg
        rw [Finset.sum_range_succ, Nat.sub_self, Finset.prod_range_zero]
        rcases Nat.eq_zero_or_pos n with rfl | hn
        · simp [ha]
        · rw [hg hn]
          simp only [zero_add, one_mul]
          congr 1
          rw [Finset.sum_mul]
          refine Finset.sum_congr rfl fun j hj => ?_
          have hj := Finset.mem_range.mp hj
          have : n - j = n - 1 - j + 1 := by omega
          rw [this, Finset.prod_range_succ, show j + 1 + (n - 1 - j) = n by omega]
          ring
      simp only [plus, Fld.map, comb, nil0, Nat.add_sub_cancel]
      congr 1
      · funext i l
        exact key (fun j => (k j).h i l) _ fun hn => congrFun (congrFun (congrArg Fld.h (e3 hn)) i) l
      · funext i l
        exact key (fun j => (k j).vn i l) _ fun hn => congrFun (congrFun (congrArg Fld.vn (e3 hn)) i) l
      · funext q i l
        exact key (fun j => (k j).tr q i l) _ fun hn =>
          congrFun (congrFun (congrFun (congrArg Fld.tr (e3 hn)) q) i) l
    have hY : (st (n + 1)).2 = comb y (fun j => dt * lsA C.a C.b (n + 1) j) k (n + 1) := by
      have e : st (n + 1) = ((st (n + 1)).1, (st n).2.axpy (dt * C.b n) (st (n + 1)).1) := by
        rw [hstage]
      rw [e, hG, e2]
      have key : ∀ (f : ℕ → ℝ) (g : ℝ), g + ∑ j ∈ Finset.range n, dt * lsA C.a C.b n j * f j +
          dt * C.b n * (0 + ∑ j ∈ Finset.range (n + 1),
            (∏ l ∈ Finset.range (n - j), C.a (j + 1 + l)) * f j) =
          g + ∑ j ∈ Finset.range (n + 1), dt * lsA C.a C.b (n + 1) j * f j := by
        intro f g
        have : ∑ j ∈ Finset.range n, dt * lsA C.a C.b n j * f j =
            ∑ j ∈ Finset.range (n + 1), dt * lsA C.a C.b n j * f j := by
          rw [Finset.sum_range_succ]
          have : lsA C.a C.b n n = 0 := Finset.sum_eq_zero fun j hj => by
            rw [if_neg (by have := Finset.mem_range.mp hj; omega)]
          rw [this]; ring
        rw [this, zero_add, Finset.mul_sum, add_assoc, ← Finset.sum_add_distrib]
        congr 1
        refine Finset.sum_congr rfl fun j hj => ?_
        have hj := Finset.mem_range.mp hj
        have : lsA C.a C.b (n + 1) j = lsA C.a C.b n j +
            C.b n * ∏ l ∈ Finset.range (n - j), C.a (j + 1 + l) := by
          unfold lsA
          rw [Finset.sum_range_succ, if_pos (by omega)]
        rw [this]; ring
      simp only [Fld.axpy, Fld.zip, comb, nil0, Nat.add_sub_cancel]
      congr 1
      · funext i l; exact key (fun j => (k j).h i l) _
      · funext i l; exact key (fun j => (k j).vn i l) _
      · funext q i l; exact key (fun j => (k j).tr q i l) _
    exact ⟨by rw [← hY], hY, fun _ => hG⟩

/-- Every low-storage step is an explicit Runge-Kutta step. -/
theorem lsrk_isRK {d : Dims} {m : Mem ℝ} (hd : DimsOK d) (hc : ConnOK d m)
    {sw : SWModel ℝ} {H : HookFn ℝ} (hH : HookOK d sw H m) (hadd : HookAdds H)
    (h1 : sw.prm.disable_h = false) (h2 : sw.prm.disable_vn = false) (split : Bool) (n : ℕ)
    (t dt : ℝ) {m1 : Mem ℝ}
    (he : Exec d ((Stepper.lsrk n).run d ⟨defaultKernels d.vl, split⟩ sw [(t, dt)]) m m1) :
    IsRKStep d ⟨defaultKernels d.vl, split⟩ sw m n (lsA (lsrkCoef n).a (lsrkCoef n).b)
      (lsA (lsrkCoef n).a (lsrkCoef n).b n) (lsrkCoef n).c t dt (m1.fld .state) := by
  have hS := genSetup hd hc hH
  obtain ⟨-, -, v⟩ := hS.run he
  obtain ⟨k, hk⟩ := lsrk_unroll (genSys d sw H m) hadd h1 h2 (lsrkCoef n) (lsrkCoef_a0 n) t dt
    (m.fld .tend) (m.fld .state)
  refine ⟨k, fun i _ => ?_, ?_⟩
  · conv_rhs => rw [(hk i).1]
    exact isTend hS h1 h2 split _ _ _
  · rw [← (hk n).2.1]
    exact v

set_option maxRecDepth 4000 in
set_option maxHeartbeats 4000000 in
theorem lsrk5_order : OrderFour 5 (lsA (lsrkCoef 5 : Coef ℝ).a (lsrkCoef 5 : Coef ℝ).b)
    (lsA (lsrkCoef 5 : Coef ℝ).a (lsrkCoef 5 : Coef ℝ).b 5) (lsrkCoef 5 : Coef ℝ).c (1 / 10 ^ 25) := by
  have ea : (lsrkCoef 5 : Coef ℝ).a = nth [0, -567301805773 / 1357537059087,
        -2404267990393 / 2016746695238, -3550918686646 / 2091501179385,
        -1275806237668 / 842570457699] := by simp [lsrkCoef]
  have eb : (lsrkCoef 5 : Coef ℝ).b = nth [1432997174477 / 9575080441755,
      5161836677717 / 13612068292357, 1720146321549 / 2090206949498, 3134564353537 / 4481467310338,
      2277821191437 / 14882151754819] := by simp [lsrkCoef]
  have ec : (lsrkCoef 5 : Coef ℝ).c = nth [0, 1432997174477 / 9575080441755,
      2526269341429 / 6820363962896, 2006345519317 / 3224310063776,
      2802321613138 / 2924317926251] := by simp [lsrkCoef]
  rw [ea, eb, ec]
  constructor
  · intro i hi
    interval_cases i <;>
      norm_num [lsA, nth, Finset.sum_range_succ, Finset.prod_range_succ, abs_le]
  all_goals
    norm_num [lsA, nth, Finset.sum_range_succ, Finset.prod_range_succ, abs_le]

/-- The five-stage low-storage stepper is an explicit five-stage Runge-Kutta method whose tableau
satisfies the row-sum condition and all order conditions through order four up to `10⁻²⁵`; one tableau
serves every mesh, state, time, step size and forcing. -/
theorem C37_lsrk5_order_four : ∃ (A : ℕ → ℕ → ℝ) (b c : ℕ → ℝ), OrderFour 5 A b c (1 / 10 ^ 25) ∧
    ∀ {d : Dims} {m : Mem ℝ} (_ : DimsOK d) (_ : ConnOK d m) {sw : SWModel ℝ} {H : HookFn ℝ}
      (_ : HookOK d sw H m) (_ : HookAdds H) (_ : sw.prm.disable_h = false)
      (_ : sw.prm.disable_vn = false) (split : Bool) (t dt : ℝ) {m1 : Mem ℝ}
      (_ : Exec d ((Stepper.lsrk 5).run d ⟨defaultKernels d.vl, split⟩ sw [(t, dt)]) m m1),
      IsRKStep d ⟨defaultKernels d.vl, split⟩ sw m 5 A b c t dt (m1.fld .state) :=
  ⟨_, _, _, lsrk5_order, fun hd hc _ _ hH ha h1 h2 split t dt _ he =>
    lsrk_isRK hd hc hH ha h1 h2 split 5 t dt he⟩

/-- The classical stepper is an explicit four-stage Runge-Kutta method whose tableau satisfies the
order conditions exactly; here the forcing may be any pointwise update. -/
theorem C36_rk4_order_four : ∃ (A : ℕ → ℕ → ℝ) (b c : ℕ → ℝ), OrderFour 4 A b c 0 ∧
    ∀ {d : Dims} {m : Mem ℝ} (_ : DimsOK d) (_ : ConnOK d m) {sw : SWModel ℝ} {H : HookFn ℝ}
      (_ : HookOK d sw H m) (_ : sw.prm.disable_h = false)
      (_ : sw.prm.disable_vn = false) (split : Bool) (t dt : ℝ) {m1 : Mem ℝ}
      (_ : Exec d (Stepper.rk4.run d ⟨defaultKernels d.vl, split⟩ sw [(t, dt)]) m m1),
      IsRKStep d ⟨defaultKernels d.vl, split⟩ sw m 4 A b c t dt (m1.fld .state) := by
  refine ⟨fun i j => if i = j + 1 then (if i = 3 then 1 else 1 / 2) else 0,
    fun i => if i = 0 ∨ i = 3 then 1 / 6 else 1 / 3,
    fun i => if i = 0 then 0 else if i = 3 then 1 else 1 / 2, ?_, ?_⟩
  · constructor
    · intro i hi
      interval_cases i <;> simp only [Finset.sum_range_succ, Finset.sum_range_zero] <;> norm_num
    all_goals
      simp only [Finset.sum_range_succ, Finset.sum_range_zero]
      norm_num
  · intro d m hd hc sw H hH h1 h2 split t dt m1 he
    obtain ⟨k1, k2, k3, k4, e1, e2, e3, e4, v1, v2, v3⟩ :=
      C36_rk4_classical hd hc hH h1 h2 split t dt he
    refine ⟨fun i => if i = 0 then k1 else if i = 1 then k2 else if i = 2 then k3 else k4,
      fun i hi => ?_, ?_, ?_, ?_⟩
    · have half : dt * (1 / 2) = dt / 2 := by ring
      have half' : 1 / 2 * dt = dt / 2 := by ring
      interval_cases i
      · simpa [comb] using e1
      · convert e2 using 1
        · norm_num [half']
        · simp [comb, plus, Finset.sum_range_succ, div_eq_mul_inv]
        · rfl
      · convert e3 using 1
        · norm_num [half']
        · simp [comb, plus, Finset.sum_range_succ, div_eq_mul_inv]
        · rfl
      · convert e4 using 1
        · norm_num
        · simp [comb, plus, Finset.sum_range_succ]
        · rfl
    · intro c k g0 g1 g2 g3
      rw [v1 c k g0 g1 g2 g3]; simp [comb, Finset.sum_range_succ]; ring
    · intro c k g0 g1 g2 g3
      rw [v2 c k g0 g1 g2 g3]; simp [comb, Finset.sum_range_succ]; ring
    · intro l c k l0 l1 g0 g1 g2 g3
      rw [v3 l c k l0 l1 g0 g1 g2 g3]; simp [comb, Finset.sum_range_succ]; ring

/-- a forced five-stage step from a state that is not at rest -/
example (dc : ℝ) : ∃ (m m1 : Mem ℝ) (sw : SWModel ℝ), DimsOK p46.dims ∧ ConnOK p46.dims m ∧
    HookOK p46.dims (sw.forced p46.dims (fun x _ _ => x) (fun _ y _ => y) (fun _ _ t => t))
      (forceFn (fun x _ _ => x) (fun _ y _ => y) (fun _ _ t => t) m) m ∧
    HookAdds (forceFn (fun x _ _ => x) (fun _ y _ => y) (fun _ _ t => t) m) ∧
    sw.prm.disable_h = false ∧ sw.prm.disable_vn = false ∧
    Exec p46.dims ((Stepper.lsrk 5).run p46.dims ⟨defaultKernels 2, false⟩
      (sw.forced p46.dims (fun x _ _ => x) (fun _ y _ => y) (fun _ _ t => t)) [(0, 1)]) m m1 ∧
    (m.fld .state).vn 1 0 = 1 := by
  obtain ⟨m, h, h1, h2⟩ := exists_ready p46_valid dc (⟨1, 9, 1, 1, 1, 1, false, false⟩ : Params ℝ)
    ⟨fun c _ => 1 + c, fun e _ => e, fun _ _ _ => 3⟩ ⟨fun _ _ => 7, fun _ _ => 8, fun _ _ _ => 9⟩
  obtain ⟨hd, hc⟩ := ready_ok p46_run h
  have hH := hookOK_forced p46.dims (SWModel.ofParams (⟨1, 9, 1, 1, 1, 1, false, false⟩ : Params ℝ))
    (fun x _ _ => x) (fun _ y _ => y) (fun _ _ t => t) m
  obtain ⟨m1, r, -⟩ := run_runs (genSetup hd hc hH) (.lsrk 5) [(0, 1)]
  exact ⟨m, m1, _, hd, hc, hH, hookAdds_force _ _ _ _, rfl, rfl, (r false).exec, by rw [h1]; norm_num⟩

end

end Props
end Omega
