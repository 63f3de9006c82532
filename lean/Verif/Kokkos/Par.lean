import Verif.Kokkos.Prog
import Mathlib.Logic.Relation
import Mathlib.Logic.Function.Basic

/-!
# `parallel_for`: interleaving semantics, races, faults; and the theorem that threads with disjoint
write sets which succeed alone are race free, fault free and deterministic under every interleaving.
-/

namespace Omega

open Prog

variable {R : Type}

/-- Iteration index of a launch (rank 1 and 2 launches use trailing index 0). -/
abbrev Idx := Int × Int × Int

/-- Index range `[0,n0) × [0,n1) × [0,n2)` of `omega_parallel_for`
(`src/common.hpp:92-104`: `RangePolicy(0, ub)`, `MDRangePolicy` with zero lower bounds). -/
def InDom (n0 n1 n2 : Int) (x : Idx) : Prop :=
  (0 ≤ x.1 ∧ x.1 < n0) ∧ (0 ≤ x.2.1 ∧ x.2.1 < n1) ∧ (0 ≤ x.2.2 ∧ x.2.2 < n2)

/-- A device launch. -/
structure Cmd (R : Type) where
  n0 : Int
  n1 : Int
  n2 : Int
  body : Idx → Prog R Unit

/-- The indices of a launch. -/
def Cmd.Dom (c : Cmd R) : Idx → Prop := InDom c.n0 c.n1 c.n2

/-- One action of one thread; `none` when the thread is finished or its next action is undefined
behaviour or out of bounds. -/
def stepT (d : Dims) : Prog R Unit → Mem R → Option (Prog R Unit × Mem R)
  | .ret _, _ => none
  | .ub, _ => none
  | .rdI a i j k, m => if a.InB d i j then some (k (m.int a i j), m) else none
  | .rdR a l i k c, m => if a.InB d l i k then some (c (m.real a l i k), m) else none
  | .wrI a i j v c, m => if a.InB d i j then some (c, m.setI a i j v) else none
  | .wrR a l i k v c, m => if a.InB d l i k then some (c, m.setR a l i k v) else none

/-- The location a thread reads next. -/
def nextRead : Prog R Unit → Option Loc
  | .rdI a i j _ => some (.int a i j)
  | .rdR a l i k _ => some (.real a l i k)
  | _ => none
/-- The location a thread writes next. -/
def nextWrite : Prog R Unit → Option Loc
  | .wrI a i j _ _ => some (.int a i j)
  | .wrR a l i k _ _ => some (.real a l i k)
  | _ => none

/-- The thread's next action is undefined behaviour or out of bounds. -/
def Faulty (d : Dims) : Prog R Unit → Prop
  | .ret _ => False
  | .ub => True
  | .rdI a i j _ => ¬ a.InB d i j
  | .rdR a l i k _ => ¬ a.InB d l i k
  | .wrI a i j _ _ => ¬ a.InB d i j
  | .wrR a l i k _ _ => ¬ a.InB d l i k

/-- Configuration of a running launch: the remaining program of every thread, and the memory. -/
abbrev Conf (R : Type) := (Idx → Prog R Unit) × Mem R

/-- Any thread of the launch takes one step. -/
inductive ParStep (d : Dims) (c : Cmd R) : Conf R → Conf R → Prop
  | step (T : Idx → Prog R Unit) (m : Mem R) (x : Idx) (p' : Prog R Unit) (m' : Mem R)
      (hx : c.Dom x) (h : stepT d (T x) m = some (p', m')) :
      ParStep d c (T, m) (Function.update T x p', m')

/-- Reachable by any interleaving from the launch in memory `m`. -/
def Reach (d : Dims) (c : Cmd R) (m : Mem R) (C : Conf R) : Prop :=
  Relation.ReflTransGen (ParStep d c) (c.body, m) C

/-- Two threads are about to access the same location, one of them writing. -/
def Race (c : Cmd R) (C : Conf R) : Prop :=
  ∃ x y loc, c.Dom x ∧ c.Dom y ∧ x ≠ y ∧ nextWrite (C.1 x) = some loc ∧
    (nextWrite (C.1 y) = some loc ∨ nextRead (C.1 y) = some loc)

/-- Some thread is about to do something undefined. -/
def Fault (d : Dims) (c : Cmd R) (C : Conf R) : Prop := ∃ x, c.Dom x ∧ Faulty d (C.1 x)

/-- All threads have finished. -/
def Finished (c : Cmd R) (C : Conf R) : Prop := ∀ x, c.Dom x → C.1 x = .ret ()

/-- A launch is safe in `m`: no interleaving reaches undefined behaviour, an out-of-bounds access or a
data race. -/
def Cmd.Safe (d : Dims) (c : Cmd R) (m : Mem R) : Prop :=
  ∀ C, Reach d c m C → ¬ Fault d c C ∧ ¬ Race c C

/-- Some complete interleaving of the launch leads from `m` to `m'`. -/
def Cmd.Exec (d : Dims) (c : Cmd R) (m m' : Mem R) : Prop :=
  ∃ T, Reach d c m (T, m') ∧ Finished c (T, m')

/-- Safe, with the unique outcome `m'`. -/
def Cmd.Runs (d : Dims) (c : Cmd R) (m m' : Mem R) : Prop :=
  c.Safe d m ∧ ∀ m'', c.Exec d m m'' ↔ m'' = m'

/-- Permissions of thread `x`: full access to what it owns, read access to what nobody owns. -/
def permOf (own : Idx → Loc → Bool) (ro : Loc → Bool) (x : Idx) (loc : Loc) : Perm :=
  if own x loc then .rw else if ro loc then .ro else .none

section Drf

variable {d : Dims} {c : Cmd R} {own : Idx → Loc → Bool} {ro : Loc → Bool} {m0 : Mem R}
  {solo : Idx → Mem R}

/-- Invariant of interleaved executions. -/
private structure Inv (d : Dims) (c : Cmd R) (own : Idx → Loc → Bool) (ro : Loc → Bool) (m0 : Mem R)
    (solo : Idx → Mem R) (C : Conf R) : Prop where
  thr : ∀ x, c.Dom x → ∃ mx, run d (permOf own ro x) (C.1 x) mx = some ((), solo x) ∧
    ∀ loc, permOf own ro x loc ≠ .none → mx.EqAt C.2 loc
  frame : ∀ loc, (∀ x, c.Dom x → own x loc = false) → C.2.EqAt m0 loc

private theorem perm_rw {x : Idx} {loc : Loc} (h : permOf own ro x loc = .rw) :
    own x loc = true := by
  unfold permOf at h
  split_ifs at h with h1; exact h1

private theorem perm_none_of_other (hdisj : ∀ x y loc, c.Dom x → c.Dom y → x ≠ y →
      own x loc = true → own y loc = false)
    (hro : ∀ x loc, c.Dom x → own x loc = true → ro loc = false)
    {x y : Idx} {loc : Loc} (hx : c.Dom x) (hy : c.Dom y) (hne : x ≠ y)
    (ho : own x loc = true) : permOf own ro y loc = .none := by
  simp [permOf, hdisj x y loc hx hy hne ho, hro x loc hx ho]

private theorem inv_write (hdisj : ∀ x y loc, c.Dom x → c.Dom y → x ≠ y →
      own x loc = true → own y loc = false)
    (hro : ∀ x loc, c.Dom x → own x loc = true → ro loc = false)
    {T : Idx → Prog R Unit} {m m' mx mx' : Mem R} {x : Idx} {p' : Prog R Unit} {loc : Loc}
    (hI : Inv d c own ro m0 solo (T, m)) (hx : c.Dom x)
    (hrun : run d (permOf own ro x) p' mx' = some ((), solo x))
    (hag : ∀ loc, permOf own ro x loc ≠ .none → mx.EqAt m loc)
    (hw : permOf own ro x loc = .rw)
    (hm : ∀ y, y ≠ loc → m'.EqAt m y)
    (hcong : ∀ y, mx.EqAt m y → mx'.EqAt m' y) :
    Inv d c own ro m0 solo (Function.update T x p', m') := by
  constructor
  · intro y hy
    by_cases hyx : y = x
    · subst hyx
      refine ⟨mx', by simpa using hrun, ?_⟩
      intro loc' hl
      exact hcong loc' (hag loc' hl)
    · obtain ⟨my, h1, h2⟩ := hI.thr y hy
      refine ⟨my, by simpa [Function.update_of_ne hyx] using h1, ?_⟩
      intro loc' hl
      have hne : loc' ≠ loc := by
        rintro rfl
        exact hl (perm_none_of_other hdisj hro hx hy (Ne.symm hyx) (perm_rw hw))
      exact (h2 loc' hl).trans (hm loc' hne).symm
  · intro loc' hl
    have hne : loc' ≠ loc := by
      rintro rfl
      have := hl x hx
      rw [perm_rw hw] at this
      exact Bool.noConfusion this
    exact (hm loc' hne).trans (hI.frame loc' hl)

private theorem inv_read {T : Idx → Prog R Unit} {m mx : Mem R} {x : Idx} {p' : Prog R Unit}
    (hI : Inv d c own ro m0 solo (T, m))
    (hrun : run d (permOf own ro x) p' mx = some ((), solo x))
    (hag : ∀ loc, permOf own ro x loc ≠ .none → mx.EqAt m loc) :
    Inv d c own ro m0 solo (Function.update T x p', m) := by
  constructor
  · intro y hy
    by_cases hyx : y = x
    · subst hyx; exact ⟨mx, by simpa using hrun, hag⟩
    · obtain ⟨my, h1, h2⟩ := hI.thr y hy
      exact ⟨my, by simpa [Function.update_of_ne hyx] using h1, h2⟩
  · exact hI.frame

private theorem inv_step (hdisj : ∀ x y loc, c.Dom x → c.Dom y → x ≠ y →
      own x loc = true → own y loc = false)
    (hro : ∀ x loc, c.Dom x → own x loc = true → ro loc = false)
    {C C' : Conf R} (hI : Inv d c own ro m0 solo C) (hs : ParStep d c C C') :
    Inv d c own ro m0 solo C' := by
  cases hs with
  | step T m x p' m' hx h =>
    obtain ⟨mx, hrun, hag⟩ := hI.thr x hx
    have hrun' : run d (permOf own ro x) (T x) mx = some ((), solo x) := hrun
    clear hrun
    revert hrun' h
    cases hT : T x with
    | ret a => intro h; simp [stepT] at h
    | ub => intro h; simp [stepT] at h
    | rdI a i j k =>
      intro h hrun
      simp only [stepT] at h
      split_ifs at h with hb
      simp only [run] at hrun
      split_ifs at hrun with hp
      obtain ⟨rfl, rfl⟩ : k (m.int a i j) = p' ∧ m = m' := by simpa using h
      have := hag _ hp.2
      have he : mx.int a i j = m.int a i j := this
      rw [he] at hrun
      exact inv_read hI hrun hag
    | rdR a l i k cc =>
      intro h hrun
      simp only [stepT] at h
      split_ifs at h with hb
      simp only [run] at hrun
      split_ifs at hrun with hp
      obtain ⟨rfl, rfl⟩ : cc (m.real a l i k) = p' ∧ m = m' := by simpa using h
      have := hag _ hp.2
      have he : mx.real a l i k = m.real a l i k := this
      rw [he] at hrun
      exact inv_read hI hrun hag
    | wrI a i j v cc =>
      intro h hrun
      simp only [stepT] at h
      split_ifs at h with hb
      simp only [run] at hrun
      split_ifs at hrun with hp
      obtain ⟨rfl, rfl⟩ : cc = p' ∧ m.setI a i j v = m' := by simpa using h
      exact inv_write hdisj hro hI hx hrun hag hp.2
        (fun y hy => Mem.setI_eqAt m a i j v hy) (fun y hy => Mem.setI_congr a i j v hy)
    | wrR a l i k v cc =>
      intro h hrun
      simp only [stepT] at h
      split_ifs at h with hb
      simp only [run] at hrun
      split_ifs at hrun with hp
      obtain ⟨rfl, rfl⟩ : cc = p' ∧ m.setR a l i k v = m' := by simpa using h
      exact inv_write hdisj hro hI hx hrun hag hp.2
        (fun y hy => Mem.setR_eqAt m a l i k v hy) (fun y hy => Mem.setR_congr a l i k v hy)

private theorem inv_safe (hdisj : ∀ x y loc, c.Dom x → c.Dom y → x ≠ y →
      own x loc = true → own y loc = false)
    (hro : ∀ x loc, c.Dom x → own x loc = true → ro loc = false)
    {C : Conf R} (hI : Inv d c own ro m0 solo C) : ¬ Fault d c C ∧ ¬ Race c C := by
  constructor
  · rintro ⟨x, hx, hf⟩
    obtain ⟨mx, hrun, -⟩ := hI.thr x hx
    revert hf hrun
    cases C.1 x <;> simp only [Faulty, run] <;> intro hf hrun <;> simp_all
  · rintro ⟨x, y, loc, hx, hy, hne, hw, hyw⟩
    have hox : own x loc = true := by
      obtain ⟨mx, hrun, -⟩ := hI.thr x hx
      revert hw hrun
      cases C.1 x <;> simp only [nextWrite, run] <;> intro hw hrun <;> simp at hw
      all_goals
        subst hw
        split_ifs at hrun with hp
        exact perm_rw hp.2
    have hny := perm_none_of_other hdisj hro hx hy hne hox
    obtain ⟨my, hrun, -⟩ := hI.thr y hy
    revert hyw hrun
    cases C.1 y <;> simp only [nextWrite, nextRead, run] <;> intro hyw hrun <;> simp at hyw
    all_goals
      subst hyw
      simp [hny] at hrun

private theorem inv_thread_completes (hdisj : ∀ x y loc, c.Dom x → c.Dom y → x ≠ y →
      own x loc = true → own y loc = false)
    (hro : ∀ x loc, c.Dom x → own x loc = true → ro loc = false)
    {x : Idx} (hx : c.Dom x) (p : Prog R Unit) :
    ∀ (T : Idx → Prog R Unit) (m : Mem R), T x = p → Inv d c own ro m0 solo (T, m) →
      ∃ m', Relation.ReflTransGen (ParStep d c) (T, m) (Function.update T x (.ret ()), m') ∧
        Inv d c own ro m0 solo (Function.update T x (.ret ()), m') := by
  have key : ∀ (T : Idx → Prog R Unit) (m : Mem R) (p' : Prog R Unit) (m' : Mem R),
      Inv d c own ro m0 solo (T, m) → stepT d (T x) m = some (p', m') →
      (∀ (T : Idx → Prog R Unit) (m : Mem R), T x = p' → Inv d c own ro m0 solo (T, m) →
        ∃ m', Relation.ReflTransGen (ParStep d c) (T, m) (Function.update T x (.ret ()), m') ∧
        Inv d c own ro m0 solo (Function.update T x (.ret ()), m')) →
      ∃ m', Relation.ReflTransGen (ParStep d c) (T, m) (Function.update T x (.ret ()), m') ∧
        Inv d c own ro m0 solo (Function.update T x (.ret ()), m') := by
    intro T m p' m' hI hst ih
    have hs := ParStep.step (d := d) (c := c) T m x p' m' hx hst
    have hI' := inv_step hdisj hro hI hs
    obtain ⟨m'', h1, h2⟩ := ih (Function.update T x p') m' (by simp) hI'
    refine ⟨m'', ?_, by simpa using h2⟩
    refine Relation.ReflTransGen.head hs ?_
    simpa using h1
  induction p with
  | ret a =>
    intro T m hT hI
    refine ⟨m, ?_, ?_⟩
    · rw [show Function.update T x (.ret ()) = T by
        rw [show (Prog.ret () : Prog R Unit) = T x from hT.symm]; simp]
    · rw [show Function.update T x (.ret ()) = T by
        rw [show (Prog.ret () : Prog R Unit) = T x from hT.symm]; simp]
      exact hI
  | ub =>
    intro T m hT hI
    obtain ⟨mx, hrun, -⟩ := hI.thr x hx
    simp only [hT, run] at hrun
    exact absurd hrun (by simp)
  | rdI a i j k ih =>
    intro T m hT hI
    obtain ⟨mx, hrun, -⟩ := hI.thr x hx
    simp only [hT, run] at hrun
    split_ifs at hrun with hp
    exact key T m _ _ hI (by rw [hT]; simp [stepT, hp.1]; exact ⟨rfl, rfl⟩) (ih _)
  | rdR a l i k cc ih =>
    intro T m hT hI
    obtain ⟨mx, hrun, -⟩ := hI.thr x hx
    simp only [hT, run] at hrun
    split_ifs at hrun with hp
    exact key T m _ _ hI (by rw [hT]; simp [stepT, hp.1]; exact ⟨rfl, rfl⟩) (ih _)
  | wrI a i j v cc ih =>
    intro T m hT hI
    obtain ⟨mx, hrun, -⟩ := hI.thr x hx
    simp only [hT, run] at hrun
    split_ifs at hrun with hp
    exact key T m _ _ hI (by rw [hT]; simp [stepT, hp.1]; rfl) ih
  | wrR a l i k v cc ih =>
    intro T m hT hI
    obtain ⟨mx, hrun, -⟩ := hI.thr x hx
    simp only [hT, run] at hrun
    split_ifs at hrun with hp
    exact key T m _ _ hI (by rw [hT]; simp [stepT, hp.1]; rfl) ih

/-- All indices of a launch, as a list. -/
def Cmd.domList (c : Cmd R) : List Idx :=
  (List.range c.n0.toNat).flatMap fun (a : Nat) => (List.range c.n1.toNat).flatMap fun (b : Nat) =>
    (List.range c.n2.toNat).map fun (e : Nat) => ((a : Int), (b : Int), (e : Int))

theorem Cmd.mem_domList (c : Cmd R) (x : Idx) : x ∈ c.domList ↔ c.Dom x := by
  obtain ⟨a, b, e⟩ := x
  simp only [Cmd.domList, List.mem_flatMap, List.mem_range, List.mem_map, Cmd.Dom, InDom,
    Prod.mk.injEq]
  constructor
  · rintro ⟨a', ha, b', hb, e', he, rfl, rfl, rfl⟩; omega
  · rintro ⟨⟨ha, ha'⟩, ⟨hb, hb'⟩, he, he'⟩
    exact ⟨a.toNat, by omega, b.toNat, by omega, e.toNat, by omega, by omega, by omega, by omega⟩

private theorem inv_list_completes (hdisj : ∀ x y loc, c.Dom x → c.Dom y → x ≠ y →
      own x loc = true → own y loc = false)
    (hro : ∀ x loc, c.Dom x → own x loc = true → ro loc = false)
    (L : List Idx) (hL : ∀ x ∈ L, c.Dom x) :
    ∀ (T : Idx → Prog R Unit) (m : Mem R), Inv d c own ro m0 solo (T, m) →
      ∃ T' m', Relation.ReflTransGen (ParStep d c) (T, m) (T', m') ∧
        Inv d c own ro m0 solo (T', m') ∧ (∀ x ∈ L, T' x = .ret ()) ∧
        (∀ x, T x = .ret () → T' x = .ret ()) := by
  induction L with
  | nil => intro T m hI; exact ⟨T, m, .refl, hI, by simp, fun x h => h⟩
  | cons x L ih =>
    intro T m hI
    obtain ⟨m1, h1, hI1⟩ := inv_thread_completes hdisj hro (hL x (by simp)) (T x) T m rfl hI
    obtain ⟨T', m', h2, hI2, h3, h4⟩ := ih (fun y hy => hL y (by simp [hy])) _ m1 hI1
    refine ⟨T', m', h1.trans h2, hI2, ?_, ?_⟩
    · intro y hy
      rcases List.mem_cons.mp hy with rfl | hy
      · exact h4 _ (by simp)
      · exact h3 y hy
    · intro y hy
      apply h4
      by_cases hyx : y = x
      · subst hyx; simp
      · rw [Function.update_of_ne hyx]; exact hy

/-- **Data-race freedom.** If distinct threads own disjoint sets of locations, read-only locations are
owned by nobody, and every thread run alone succeeds touching only what it may, then under every
interleaving the launch is free of faults and races and ends in the memory assembled from the solo
results. -/
theorem Cmd.runs_of_solo (own : Idx → Loc → Bool) (ro : Loc → Bool)
    (hdisj : ∀ x y loc, c.Dom x → c.Dom y → x ≠ y → own x loc = true → own y loc = false)
    (hro : ∀ x loc, c.Dom x → own x loc = true → ro loc = false)
    {m m' : Mem R} (solo : Idx → Mem R)
    (hsolo : ∀ x, c.Dom x → run d (permOf own ro x) (c.body x) m = some ((), solo x))
    (hfin : ∀ x loc, c.Dom x → own x loc = true → m'.EqAt (solo x) loc)
    (hrest : ∀ loc, (∀ x, c.Dom x → own x loc = false) → m'.EqAt m loc) :
    c.Runs d m m' := by
  have hI0 : Inv d c own ro m solo (c.body, m) :=
    ⟨fun x hx => ⟨m, hsolo x hx, fun _ _ => Mem.EqAt.rfl'⟩, fun _ _ => Mem.EqAt.rfl'⟩
  have hReach : ∀ C, Reach d c m C → Inv d c own ro m solo C := by
    intro C hC
    induction hC with
    | refl => exact hI0
    | tail _ hs ih => exact inv_step hdisj hro ih hs
  have hEnd : ∀ T m'', Inv d c own ro m solo (T, m'') → Finished c (T, m'') → m'' = m' := by
    intro T m'' hI hF
    apply Mem.eq_of_EqAt
    intro loc
    by_cases ho : ∃ x, c.Dom x ∧ own x loc = true
    · obtain ⟨x, hx, ho⟩ := ho
      obtain ⟨mx, hrun, hag⟩ := hI.thr x hx
      have hp := hF x hx
      simp only at hp
      simp only [hp, run] at hrun
      have hmx : mx = solo x := by simpa using hrun
      subst hmx
      exact (hag loc (by simp [permOf, ho])).symm.trans (hfin x loc hx ho).symm
    · have h : ∀ x, c.Dom x → own x loc = false := by
        intro x hx
        by_contra hne
        exact ho ⟨x, hx, by simpa using hne⟩
      exact (hI.frame loc h).trans (hrest loc h).symm
  refine ⟨fun C hC => inv_safe hdisj hro (hReach C hC), fun m'' => ⟨?_, ?_⟩⟩
  · rintro ⟨T, hR, hF⟩
    exact hEnd T m'' (hReach _ hR) hF
  · rintro rfl
    obtain ⟨T', m1, h1, hI1, h3, -⟩ := inv_list_completes hdisj hro c.domList
      (fun x hx => (c.mem_domList x).mp hx) c.body m hI0
    have hF : Finished c (T', m1) := fun x hx => h3 x ((c.mem_domList x).mpr hx)
    have := hEnd T' m1 hI1 hF
    subst this
    exact ⟨T', h1, hF⟩

end Drf

/-! ### Host programs -/

/-- Some execution of the sequence of launches leads from `m` to `m'` (launches on one execution
space run in order). -/
inductive Exec (d : Dims) : List (Cmd R) → Mem R → Mem R → Prop
  | nil (m : Mem R) : Exec d [] m m
  | cons {c : Cmd R} {cs : List (Cmd R)} {m m1 m2 : Mem R} :
      c.Exec d m m1 → Exec d cs m1 m2 → Exec d (c :: cs) m m2

/-- No execution of the sequence of launches reaches undefined behaviour or a race. -/
inductive Safe (d : Dims) : List (Cmd R) → Mem R → Prop
  | nil (m : Mem R) : Safe d [] m
  | cons {c : Cmd R} {cs : List (Cmd R)} {m : Mem R} :
      c.Safe d m → (∀ m1, c.Exec d m m1 → Safe d cs m1) → Safe d (c :: cs) m

/-- Safe under every schedule, with unique outcome `m'`. -/
def Runs (d : Dims) (cs : List (Cmd R)) (m m' : Mem R) : Prop :=
  Safe d cs m ∧ ∀ m'', Exec d cs m m'' ↔ m'' = m'

variable {d : Dims}

theorem Runs.nil (m : Mem R) : Runs d [] m m :=
  ⟨.nil m, fun m'' => ⟨fun h => by cases h; rfl, fun h => by subst h; exact .nil _⟩⟩

theorem Runs.cons {c : Cmd R} {cs : List (Cmd R)} {m m1 m2 : Mem R} (h1 : c.Runs d m m1)
    (h2 : Runs d cs m1 m2) : Runs d (c :: cs) m m2 := by
  refine ⟨.cons h1.1 ?_, fun m'' => ⟨?_, ?_⟩⟩
  · intro m' hm'
    rw [(h1.2 m').mp hm']; exact h2.1
  · intro h
    cases h with
    | cons ha hb =>
      rw [(h1.2 _).mp ha] at hb
      exact (h2.2 _).mp hb
  · rintro rfl
    exact .cons ((h1.2 _).mpr rfl) ((h2.2 _).mpr rfl)

theorem exec_append {cs cs' : List (Cmd R)} {m m2 : Mem R} :
    Exec d (cs ++ cs') m m2 ↔ ∃ m1, Exec d cs m m1 ∧ Exec d cs' m1 m2 := by
  induction cs generalizing m with
  | nil =>
    constructor
    · intro h; exact ⟨m, .nil m, h⟩
    · rintro ⟨m1, h1, h2⟩; cases h1; exact h2
  | cons c cs ih =>
    constructor
    · intro h
      cases h with
      | cons ha hb =>
        obtain ⟨m1, h1, h2⟩ := ih.mp hb
        exact ⟨m1, .cons ha h1, h2⟩
    · rintro ⟨m1, h1, h2⟩
      cases h1 with
      | cons ha hb => exact .cons ha (ih.mpr ⟨m1, hb, h2⟩)

theorem safe_append {cs cs' : List (Cmd R)} {m : Mem R} (h : Safe d cs m)
    (h' : ∀ m1, Exec d cs m m1 → Safe d cs' m1) : Safe d (cs ++ cs') m := by
  induction h with
  | nil m => exact h' m (.nil m)
  | cons hs _ ih => exact .cons hs (fun m1 hm1 => ih m1 hm1 (fun m2 hm2 => h' m2 (.cons hm1 hm2)))

theorem Runs.append {cs cs' : List (Cmd R)} {m m1 m2 : Mem R} (h1 : Runs d cs m m1)
    (h2 : Runs d cs' m1 m2) : Runs d (cs ++ cs') m m2 := by
  refine ⟨safe_append h1.1 ?_, fun m'' => ⟨?_, ?_⟩⟩
  · intro m' hm'; rw [(h1.2 m').mp hm']; exact h2.1
  · intro h
    obtain ⟨m', ha, hb⟩ := exec_append.mp h
    rw [(h1.2 m').mp ha] at hb
    exact (h2.2 _).mp hb
  · rintro rfl
    exact exec_append.mpr ⟨m1, (h1.2 _).mpr rfl, (h2.2 _).mpr rfl⟩

theorem Runs.single {c : Cmd R} {m m' : Mem R} (h : c.Runs d m m') : Runs d [c] m m' :=
  .cons h (.nil m')

/-- The outcome of a deterministic program is unique. -/
theorem Runs.unique {cs : List (Cmd R)} {m m1 m2 : Mem R} (h1 : Runs d cs m m1)
    (h2 : Exec d cs m m2) : m2 = m1 := (h1.2 _).mp h2

theorem Runs.exec {cs : List (Cmd R)} {m m1 : Mem R} (h1 : Runs d cs m m1) : Exec d cs m m1 :=
  (h1.2 _).mpr rfl

end Omega
