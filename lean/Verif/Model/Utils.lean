import Verif.Model.Threads
import Verif.Base.Res

/-!
# Small utilities: deprecation warnings and the traced lock
-/

namespace Verif

/-! ## `deprecated`, `utils/deprecated.py` 9-55 -/

/-- The wrapper's `warn_count`, how many warnings were given, and the world of the function. -/
structure Deprecated (W : Type u) where
  warnCount : Int := 0
  warnings : Nat := 0
  world : W

/-- One call of the wrapper, `deprecated.py` 35-48. `raises` says that warnings are turned into errors (Python's filter
`error`); what else Python's filters do with a warning is not modelled. Line 45 is `warn_count += 0`. -/
def Deprecated.call {W : Type u} {R : Type v} (f : W → W × Except Err R) (max : Int) (raises : Bool) (d : Deprecated W) :
    Deprecated W × Except Err R :=
  if d.warnCount < max then
    if raises then ({ d with warnings := d.warnings + 1 }, .error .runtimeError)
    else
      let d := { d with warnings := d.warnings + 1, warnCount := d.warnCount + 0 }
      ({ d with world := (f d.world).1 }, (f d.world).2)
  else ({ d with world := (f d.world).1 }, (f d.world).2)

/-! ## `TracedLock`, `utils/threading.py` 118-135 -/

namespace TracedLock

/-- A with-block under the lock (what happens inside does not matter here), or time that passes: a thread that is the
clock. -/
inductive Call where
  | block
  | tick (d : Nat)

/-- `_accumulated_block_time`, `_accumulated_exec_time`, `_current_scope_exec_start` (`None` is 0: it is read only after
it was set), and the clock. -/
structure Shared where
  blockTime : Int := 0
  execTime : Int := 0
  scopeStart : Int := 0
  clock : Int := 0

/-- Registers: `try_lock_start`, `now`, the time of the second `perf_counter()` of `__exit__`, and a temporary. -/
structure Regs where
  tryStart : Int := 0
  now : Int := 0
  out : Int := 0
  tmp : Int := 0

/-- `__enter__` 125-131 and `__exit__` 133-135: the lock is released before the time is added. `x += e` reads `x`, then
evaluates `e`, then writes. -/
def code : Call → List (Instr Shared Regs)
  | .block => [
      .act fun r s => ({ r with tryStart := s.clock }, s),
      .acquire,
      .act fun r s => ({ r with now := s.clock }, s),
      .act fun r s => ({ r with tmp := s.blockTime }, s),
      .act fun r s => (r, { s with blockTime := r.tmp + (r.now - r.tryStart) }),
      .act fun r s => (r, { s with scopeStart := r.now }),
      .release,
      .act fun r s => ({ r with tmp := s.execTime }, s),
      .act fun r s => ({ r with out := s.clock }, s),
      .act fun r s => (r, { s with execTime := r.tmp + (r.out - s.scopeStart) })]
  | .tick d => [.act fun r s => (r, { s with clock := s.clock + d })]

/-- A block tells how long it waited and how long it ran; the clock tells nothing. -/
def result : Call → Regs → Option (Int × Int)
  | .block, r => some (r.now - r.tryStart, r.out - r.now)
  | .tick _, _ => none

def cls : SharedClass Call Shared Regs (Option (Int × Int)) := ⟨code, {}, result⟩

end TracedLock

end Verif
