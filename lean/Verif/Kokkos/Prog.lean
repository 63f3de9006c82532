import Verif.Kokkos.Mem

/-!
# Device programs and their checked sequential execution
-/

namespace Omega

variable {R α β σ : Type}

/-- A device function body: a tree of single array accesses.  `ub` is undefined behaviour
(signed overflow, `return -1` used as an index, ...). -/
inductive Prog (R α : Type) : Type
  | ret (a : α)
  | ub
  | rdI (a : IArr) (i j : Int) (k : Int → Prog R α)
  | rdR (a : RArr) (l i k : Int) (c : R → Prog R α)
  | wrI (a : IArr) (i j v : Int) (c : Prog R α)
  | wrR (a : RArr) (l i k : Int) (v : R) (c : Prog R α)

namespace Prog

/-- Sequencing. -/
protected def bind : Prog R α → (α → Prog R β) → Prog R β
  | .ret a, f => f a
  | .ub, _ => .ub
  | .rdI a i j k, f => .rdI a i j (fun v => (k v).bind f)
  | .rdR a l i k c, f => .rdR a l i k (fun v => (c v).bind f)
  | .wrI a i j v c, f => .wrI a i j v (c.bind f)
  | .wrR a l i k v c, f => .wrR a l i k v (c.bind f)

instance : Monad (Prog R) where
  pure := Prog.ret
  bind := Prog.bind

/-- Does a thread hold the right to read / write a location? -/
inductive Perm
  | none | ro | rw
  deriving DecidableEq, Repr

/-- Execute a thread alone, checking undefined behaviour, bounds and permissions. -/
def run (d : Dims) (perm : Loc → Perm) : Prog R α → Mem R → Option (α × Mem R)
  | .ret a, m => some (a, m)
  | .ub, _ => Option.none
  | .rdI a i j k, m =>
    if a.InB d i j ∧ perm (.int a i j) ≠ .none then run d perm (k (m.int a i j)) m else Option.none
  | .rdR a l i k c, m =>
    if a.InB d l i k ∧ perm (.real a l i k) ≠ .none then run d perm (c (m.real a l i k)) m
    else Option.none
  | .wrI a i j v c, m =>
    if a.InB d i j ∧ perm (.int a i j) = .rw then run d perm c (m.setI a i j v) else Option.none
  | .wrR a l i k v c, m =>
    if a.InB d l i k ∧ perm (.real a l i k) = .rw then run d perm c (m.setR a l i k v)
    else Option.none

theorem run_bind (d : Dims) (perm : Loc → Perm) (p : Prog R α) (f : α → Prog R β) (m : Mem R) :
    run d perm (p.bind f) m = (run d perm p m).bind (fun x => run d perm (f x.1) x.2) := by
  induction p generalizing m with
  | ret a => rfl
  | ub => rfl
  | rdI a i j k ih => simp only [Prog.bind, run]; split_ifs <;> simp [ih]
  | rdR a l i k c ih => simp only [Prog.bind, run]; split_ifs <;> simp [ih]
  | wrI a i j v c ih => simp only [Prog.bind, run]; split_ifs <;> simp [ih]
  | wrR a l i k v c ih => simp only [Prog.bind, run]; split_ifs <;> simp [ih]

/-! ### Accesses and checked `int` arithmetic -/

/-- read an integer view of rank 1 -/
def rdI1 (a : IArr) (i : Int) : Prog R Int := .rdI a i 0 .ret
/-- read an integer view of rank 2 -/
def rdI2 (a : IArr) (i j : Int) : Prog R Int := .rdI a i j .ret
/-- read a real view of rank 1 -/
def rd1 (a : RArr) (i : Int) : Prog R R := .rdR a 0 i 0 .ret
/-- read a real view of rank 2 -/
def rd2 (a : RArr) (i k : Int) : Prog R R := .rdR a 0 i k .ret
/-- read a real view of rank 3 -/
def rd3 (a : RArr) (l i k : Int) : Prog R R := .rdR a l i k .ret
/-- write an integer view of rank 1 -/
def wrI1 (a : IArr) (i v : Int) : Prog R Unit := .wrI a i 0 v (.ret ())
/-- write an integer view of rank 2 -/
def wrI2 (a : IArr) (i j v : Int) : Prog R Unit := .wrI a i j v (.ret ())
/-- write a real view of rank 1 -/
def wr1 (a : RArr) (i : Int) (v : R) : Prog R Unit := .wrR a 0 i 0 v (.ret ())
/-- write a real view of rank 2 -/
def wr2 (a : RArr) (i k : Int) (v : R) : Prog R Unit := .wrR a 0 i k v (.ret ())
/-- write a real view of rank 3 -/
def wr3 (a : RArr) (l i k : Int) (v : R) : Prog R Unit := .wrR a l i k v (.ret ())

/-- An `int` result: overflow is undefined behaviour. -/
def int32 (n : Int) : Prog R Int := if InInt n then .ret n else .ub
/-- `a + b` on `int` -/
def iadd (a b : Int) : Prog R Int := int32 (a + b)
/-- `a - b` on `int` -/
def isub (a b : Int) : Prog R Int := int32 (a - b)
/-- `a * b` on `int` -/
def imul (a b : Int) : Prog R Int := int32 (a * b)

/-- `for` loop over `j0 ≤ j < j0 + n` carrying local variables `s`. -/
def forFrom (body : Int → σ → Prog R σ) : Nat → Int → σ → Prog R σ
  | 0, _, s => .ret s
  | n + 1, j, s => (body j s).bind (forFrom body n (j + 1))

/-- `for (Int j = 0; j < n; ++j)` carrying local variables `s`. The loop bound is a value: where the
code re-reads the bound from a view each iteration, that view is not written by the loop. -/
def forI (n : Int) (s : σ) (body : Int → σ → Prog R σ) : Prog R σ := forFrom body n.toNat 0 s

/-! ### Weakest preconditions -/

/-- `p` run from `m` succeeds with a result satisfying `Q`. -/
def Wp (d : Dims) (perm : Loc → Perm) (p : Prog R α) (m : Mem R) (Q : α → Mem R → Prop) : Prop :=
  ∃ a m', run d perm p m = some (a, m') ∧ Q a m'

variable {d : Dims} {perm : Loc → Perm} {m : Mem R} {Q : α → Mem R → Prop}

theorem wp_pure {a : α} (h : Q a m) : Wp d perm (Prog.ret a) m Q := ⟨a, m, rfl, h⟩
theorem wp_pure' {a : α} (h : Q a m) : Wp d perm (Pure.pure a : Prog R α) m Q := ⟨a, m, rfl, h⟩

theorem wp_bind {p : Prog R β} {f : β → Prog R α} (h : Wp d perm p m (fun b m' => Wp d perm (f b) m' Q)) :
    Wp d perm (p >>= f) m Q := by
  obtain ⟨b, m1, h1, a, m2, h2, hq⟩ := h
  refine ⟨a, m2, ?_, hq⟩
  show run d perm (p.bind f) m = _
  rw [run_bind, h1]; exact h2

theorem wp_mono {p : Prog R α} {Q' : α → Mem R → Prop} (h : Wp d perm p m Q)
    (hQ : ∀ a m', Q a m' → Q' a m') : Wp d perm p m Q' := by
  obtain ⟨a, m', h1, h2⟩ := h
  exact ⟨a, m', h1, hQ _ _ h2⟩

theorem wp_rdI1 {a : IArr} {i : Int} {Q : Int → Mem R → Prop} (hb : a.InB d i 0)
    (hp : perm (.int a i 0) ≠ .none) (h : Q (m.int a i 0) m) : Wp d perm (rdI1 a i) m Q :=
  ⟨_, m, by simp [rdI1, run, hb, hp], h⟩
theorem wp_rdI2 {a : IArr} {i j : Int} {Q : Int → Mem R → Prop} (hb : a.InB d i j)
    (hp : perm (.int a i j) ≠ .none) (h : Q (m.int a i j) m) : Wp d perm (rdI2 a i j) m Q :=
  ⟨_, m, by simp [rdI2, run, hb, hp], h⟩
theorem wp_rd1 {a : RArr} {i : Int} {Q : R → Mem R → Prop} (hb : a.InB d 0 i 0)
    (hp : perm (.real a 0 i 0) ≠ .none) (h : Q (m.real a 0 i 0) m) : Wp d perm (rd1 a i) m Q :=
  ⟨_, m, by simp [rd1, run, hb, hp], h⟩
theorem wp_rd2 {a : RArr} {i k : Int} {Q : R → Mem R → Prop} (hb : a.InB d 0 i k)
    (hp : perm (.real a 0 i k) ≠ .none) (h : Q (m.real a 0 i k) m) : Wp d perm (rd2 a i k) m Q :=
  ⟨_, m, by simp [rd2, run, hb, hp], h⟩
theorem wp_rd3 {a : RArr} {l i k : Int} {Q : R → Mem R → Prop} (hb : a.InB d l i k)
    (hp : perm (.real a l i k) ≠ .none) (h : Q (m.real a l i k) m) :
    Wp d perm (rd3 a l i k) m Q :=
  ⟨_, m, by simp [rd3, run, hb, hp], h⟩
theorem wp_wrI1 {a : IArr} {i v : Int} {Q : Unit → Mem R → Prop} (hb : a.InB d i 0)
    (hp : perm (.int a i 0) = .rw) (h : Q () (m.setI a i 0 v)) : Wp d perm (wrI1 a i v) m Q :=
  ⟨_, _, by simp [wrI1, run, hb, hp], h⟩
theorem wp_wrI2 {a : IArr} {i j v : Int} {Q : Unit → Mem R → Prop} (hb : a.InB d i j)
    (hp : perm (.int a i j) = .rw) (h : Q () (m.setI a i j v)) : Wp d perm (wrI2 a i j v) m Q :=
  ⟨_, _, by simp [wrI2, run, hb, hp], h⟩
theorem wp_wr1 {a : RArr} {i : Int} {v : R} {Q : Unit → Mem R → Prop} (hb : a.InB d 0 i 0)
    (hp : perm (.real a 0 i 0) = .rw) (h : Q () (m.setR a 0 i 0 v)) :
    Wp d perm (wr1 a i v) m Q :=
  ⟨_, _, by simp [wr1, run, hb, hp], h⟩
theorem wp_wr2 {a : RArr} {i k : Int} {v : R} {Q : Unit → Mem R → Prop} (hb : a.InB d 0 i k)
    (hp : perm (.real a 0 i k) = .rw) (h : Q () (m.setR a 0 i k v)) :
    Wp d perm (wr2 a i k v) m Q :=
  ⟨_, _, by simp [wr2, run, hb, hp], h⟩
theorem wp_wr3 {a : RArr} {l i k : Int} {v : R} {Q : Unit → Mem R → Prop} (hb : a.InB d l i k)
    (hp : perm (.real a l i k) = .rw) (h : Q () (m.setR a l i k v)) :
    Wp d perm (wr3 a l i k v) m Q :=
  ⟨_, _, by simp [wr3, run, hb, hp], h⟩

theorem wp_int32 {n : Int} {Q : Int → Mem R → Prop} (hn : InInt n) (h : Q n m) :
    Wp d perm (int32 n) m Q := ⟨n, m, by simp [int32, hn, run], h⟩
theorem wp_iadd {a b : Int} {Q : Int → Mem R → Prop} (hn : InInt (a + b)) (h : Q (a + b) m) :
    Wp d perm (iadd a b) m Q := wp_int32 hn h
theorem wp_isub {a b : Int} {Q : Int → Mem R → Prop} (hn : InInt (a - b)) (h : Q (a - b) m) :
    Wp d perm (isub a b) m Q := wp_int32 hn h
theorem wp_imul {a b : Int} {Q : Int → Mem R → Prop} (hn : InInt (a * b)) (h : Q (a * b) m) :
    Wp d perm (imul a b) m Q := wp_int32 hn h

theorem wp_forFrom {body : Int → σ → Prog R σ} (n : Nat) (j0 : Int) (s : σ)
    (I : Int → σ → Mem R → Prop) (h0 : I j0 s m)
    (hs : ∀ j s m, j0 ≤ j → j < j0 + n → I j s m → Wp d perm (body j s) m (I (j + 1)))
    {Q : σ → Mem R → Prop} (hq : ∀ s m, I (j0 + n) s m → Q s m) :
    Wp d perm (forFrom body n j0 s) m Q := by
  induction n generalizing j0 s m with
  | zero => exact wp_pure (hq _ _ (by simpa using h0))
  | succ n ih =>
    have h1 := hs j0 s m (le_refl _) (by push_cast; omega) h0
    refine wp_bind (f := forFrom body n (j0 + 1)) (wp_mono h1 ?_)
    intro s' m' h'
    refine ih (j0 + 1) s' h' (fun j s m hj hj' => hs j s m (by omega) (by push_cast; omega)) ?_
    intro s m hI; apply hq; push_cast; rwa [show j0 + ((n : Int) + 1) = j0 + 1 + n by ring]

theorem wp_forI {body : Int → σ → Prog R σ} {n : Int} {s : σ}
    (hn : 0 ≤ n) (I : Int → σ → Mem R → Prop) (h0 : I 0 s m)
    (hs : ∀ j s m, 0 ≤ j → j < n → I j s m → Wp d perm (body j s) m (I (j + 1)))
    {Q : σ → Mem R → Prop} (hq : ∀ s m, I n s m → Q s m) :
    Wp d perm (forI n s body) m Q := by
  refine wp_forFrom n.toNat 0 s I h0 (fun j s m h0 h1 => hs j s m h0 (by omega)) ?_
  intro s m h; apply hq; rwa [show (0 : Int) + n.toNat = n by omega] at h

/-- A loop that only reads: its effect is the pure fold. -/
theorem wp_forI_read {body : Int → σ → Prog R σ} {n : Int} {s : σ} (hn : 0 ≤ n)
    (f : Int → σ → σ)
    (hs : ∀ j s, 0 ≤ j → j < n → Wp d perm (body j s) m (fun s' m' => s' = f j s ∧ m' = m))
    {Q : σ → Mem R → Prop} (hq : Q (foldI n s f) m) :
    Wp d perm (forI n s body) m Q := by
  refine wp_forI hn (fun j s' m' => s' = foldI j s f ∧ m' = m) ⟨rfl, rfl⟩ ?_ ?_
  · rintro j s' m' h0 h1 ⟨rfl, rfl⟩
    refine wp_mono (hs j _ h0 h1) ?_
    rintro s'' m'' ⟨rfl, rfl⟩
    exact ⟨(foldI_succ j h0 _ _).symm, rfl⟩
  · rintro s' m' ⟨rfl, rfl⟩; exact hq

end Prog

end Omega
