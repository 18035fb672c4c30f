import Verif.Spec.Concurrent

/-!
# Threads that share an object with a lock

A method is a list of steps, each of which is atomic: taking the lock, releasing it, and reading or writing the shared
object (`x += v` is a read and a write). A schedule is a list of thread numbers; each entry lets that thread take one
step. A thread that waits for the lock, or has nothing to do, does nothing in its turn. Python's own interpreter lock
only makes the interleavings coarser.
-/

namespace Verif

/-- One step of a method, with registers `ρ` and shared object `σ`. -/
inductive Instr (σ : Type u) (ρ : Type v) where
  | acquire
  | act (f : ρ → σ → ρ × σ)
  | release

/-- A class whose objects are shared: code of the calls `C`, and the result computed from the registers. -/
structure SharedClass (C : Type w) (σ : Type u) (ρ : Type v) (R : Type x) where
  code : C → List (Instr σ ρ)
  start : ρ
  result : C → ρ → R

/-- A thread: the calls it still has to make, and the call it is in (remaining steps, registers). -/
structure Thread (C : Type w) (σ : Type u) (ρ : Type v) where
  todo : List C
  cur : Option (C × List (Instr σ ρ) × ρ) := none

/-- All threads, the shared object, the holder of the lock, and what was seen so far. -/
structure Conc (C : Type w) (σ : Type u) (ρ : Type v) (R : Type x) where
  shared : σ
  lock : Option Nat
  threads : Nat → Thread C σ ρ
  hist : List (HEvent C R)

namespace Conc

variable {C : Type w} {σ : Type u} {ρ : Type v} {R : Type x}

/-- The beginning: the lock is free, thread `t` will make the calls `calls t`. -/
def start (s : σ) (calls : Nat → List C) : Conc C σ ρ R := ⟨s, none, fun t => ⟨calls t, none⟩, []⟩

/-- Thread `t` is replaced. -/
def setThread (s : Conc C σ ρ R) (t : Nat) (th : Thread C σ ρ) : Nat → Thread C σ ρ :=
  fun u => if u = t then th else s.threads u

/-- Thread `t` takes one step. -/
def step (o : SharedClass C σ ρ R) (s : Conc C σ ρ R) (t : Nat) : Conc C σ ρ R :=
  match (s.threads t).cur with
  | none => match (s.threads t).todo with
    | [] => s
    | c :: cs => { s with threads := s.setThread t ⟨cs, some (c, o.code c, o.start)⟩, hist := s.hist ++ [.inv t c] }
  | some (c, [], r) =>
    { s with threads := s.setThread t ⟨(s.threads t).todo, none⟩, hist := s.hist ++ [.ret t c (o.result c r)] }
  | some (c, .acquire :: is, r) => match s.lock with
    | none => { s with lock := some t, threads := s.setThread t ⟨(s.threads t).todo, some (c, is, r)⟩ }
    | some _ => s
  | some (c, .act f :: is, r) =>
    { s with shared := (f r s.shared).2, threads := s.setThread t ⟨(s.threads t).todo, some (c, is, (f r s.shared).1)⟩ }
  | some (c, .release :: is, r) =>
    { s with lock := none, threads := s.setThread t ⟨(s.threads t).todo, some (c, is, r)⟩ }

/-- A whole schedule. -/
def run (o : SharedClass C σ ρ R) (s : Conc C σ ρ R) (sched : List Nat) : Conc C σ ρ R := sched.foldl (step o) s

/-- No thread is in a call. -/
def Quiet (s : Conc C σ ρ R) : Prop := ∀ t, (s.threads t).cur.isNone

end Conc

/-! ## `AtomicInt`, `threading.py` 89-115 -/

namespace AtomicInt

inductive Call where
  /-- `x += v` -/
  | iadd (v : Int)
  /-- `x -= v` -/
  | isub (v : Int)
  | swap (v : Int)
  | increment (v : Int)

/-- Registers: the local variable of the method, and the value read by `+=`. -/
structure Regs where
  loc : Int := 0
  tmp : Int := 0

/-- The steps of the methods, `threading.py` 94-115 -/
def code : Call → List (Instr Int Regs)
  -- 94-97
  | .iadd v => [.acquire, .act fun r s => ({ r with tmp := s }, s), .act fun r _ => (r, r.tmp + v), .release]
  -- 99-102
  | .isub v => [.acquire, .act fun r s => ({ r with tmp := s }, s), .act fun r _ => (r, r.tmp - v), .release]
  -- 104-108
  | .swap v => [.acquire, .act fun r s => ({ r with loc := s }, s), .act fun r _ => (r, v), .release]
  -- 110-115
  | .increment v => [.acquire, .act fun r s => ({ r with loc := s }, s), .act fun r s => ({ r with tmp := s }, s),
      .act fun r _ => (r, r.tmp + v), .release]

/-- What the methods return; `+=` and `-=` return the object itself, which is no number. -/
def result : Call → Regs → Option Int
  | .iadd _, _ => none
  | .isub _, _ => none
  | .swap _, r => some r.loc
  | .increment _, r => some r.loc

def cls : SharedClass Call Int Regs (Option Int) := ⟨code, {}, result⟩

end AtomicInt

/-! ## `AtomicContainer`, `threading.py` 68-86 -/

namespace AtomicContainer

inductive Call (V : Type u) where
  | take
  | read
  | set (v : Option V)

variable {V : Type u}

/-- The steps of the methods, `threading.py` 75-86. Python's `None` is `none`. The assignment of 77 first reads, then
writes. -/
def code : Call V → List (Instr (Option V) (Option V))
  | .take => [.acquire, .act fun _ s => (s, s), .act fun r _ => (r, none), .release]
  | .read => [.acquire, .act fun _ s => (s, s), .release]
  | .set v => [.acquire, .act fun r _ => (r, v), .release]

def result : Call V → Option V → Option V
  | .take, r => r
  | .read, r => r
  | .set _, _ => none

def cls : SharedClass (Call V) (Option V) (Option V) (Option V) := ⟨code, none, result⟩

end AtomicContainer

/-! ## `LockedResource`, `threading.py` 14-65 -/

namespace LockedResource

/-- A with-block is the list of its steps on the object it was given (with local variables `Y`). A block that raises is
the list of the steps until then: `__exit__` is called in any case. -/
inductive Call (X : Type u) (Y : Type v) where
  | block (y : Y) (body : List (Y → X → Y × X))
  | swap (ref : Nat)

/-- The heap of objects, and the reference `_data`. -/
structure Shared (X : Type u) where
  data : Nat
  heap : Nat → X

/-- Registers: a reference, and the local variables of the block. -/
structure Regs (Y : Type u) where
  ref : Nat := 0
  loc : Option Y := none

variable {X : Type u} {Y : Type v}

/-- A step of the block, on the object the register refers to. -/
def bodyStep (f : Y → X → Y × X) (r : Regs Y) (s : Shared X) : Regs Y × Shared X :=
  match r.loc with
  | none => (r, s)
  | some y => ({ r with loc := some (f y (s.heap r.ref)).1 },
      { s with heap := fun k => if k = r.ref then (f y (s.heap r.ref)).2 else s.heap k })

/-- `__enter__` 37-43 takes the lock and returns the object; `__exit__` 45-52 releases it; `swap` 54-65. -/
def code : Call X Y → List (Instr (Shared X) (Regs Y))
  | .block y body => [.acquire, .act fun _ s => (⟨s.data, some y⟩, s)] ++ body.map (fun f => .act (bodyStep f)) ++ [.release]
  | .swap ref => [.acquire, .act fun r s => ({ r with ref := s.data }, s), .act fun r s => (r, { s with data := ref }),
      .release]

/-- A block gives its local variables, `swap` the old reference. -/
def result : Call X Y → Regs Y → Nat ⊕ Option Y
  | .block _ _, r => .inr r.loc
  | .swap _, r => .inl r.ref

def cls : SharedClass (Call X Y) (Shared X) (Regs Y) (Nat ⊕ Option Y) := ⟨code, {}, result⟩

end LockedResource

end Verif
