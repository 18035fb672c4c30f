import Verif.Base.Res
import Mathlib.Algebra.Field.Defs

/-!
# Environment wrappers: frame stacking and scaling

`emote/env/wrappers.py` 47-130. `F` is a frame. A stacked observation is the list of its frames (the code concatenates them
along the last axis). `WarpFrame` (20-44) is image processing by another library and not modelled.
-/

namespace Verif

namespace Frames

/-- What an environment returns from `reset`: the frame, or a pair of frame and info as in gymnasium. -/
inductive Val (F : Type) where
  | frame (f : F)
  | pair (f : F)
  deriving DecidableEq, Repr

/-- What an environment returns from `step`: the old four values, or the five of gymnasium (reward, flags and info are passed
on unchanged; `I` is their type). -/
inductive Out (F I : Type) where
  | four (f : F) (rest : I)
  | five (f : F) (rest : I)
  deriving DecidableEq, Repr

/-- `LazyFrames`, `wrappers.py` 100-113. -/
structure Lazy (F : Type) where
  frames : Option (List (Val F))
  out : Option (List F)
  deriving DecidableEq, Repr

variable {F I : Type}

/-- `np.concatenate`: of arrays, at least one; a pair of an array and a dict is not an array. -/
def concat : List (Val F) → Except Err (List F)
  | [] => .error .valueError
  | [.frame f] => .ok [f]
  | .frame f :: l =>
    match concat l with
    | .error e => .error e
    | .ok fs => .ok (f :: fs)
  | .pair _ :: _ => .error .valueError

/-- `LazyFrames._force`, `wrappers.py` 115-119, behind `__array__`, `__len__` and `__getitem__` (121-130). -/
def Lazy.force (l : Lazy F) : Res (Lazy F) (List F) :=
  match l.out with
  | some out => (l, .ok out)
  | none =>
    match l.frames with
    | none => (l, .error .typeError)
    | some fs =>
      match concat fs with
      | .error e => (l, .error e)
      | .ok out => (⟨none, some out⟩, .ok out)

/-- `FrameStack`, `wrappers.py` 48-69: the deque and its `maxlen`. -/
structure Stack (F : Type) where
  n : Nat
  frames : List (Val F)
  deriving DecidableEq, Repr

/-- A new wrapper. -/
def Stack.new (n : Nat) : Stack F := ⟨n, []⟩

/-- `self.frames.append(obs)` on a `deque(maxlen=n)`. -/
def Stack.append (s : Stack F) (v : Val F) : Stack F :=
  { s with frames := (s.frames ++ [v]).drop (s.frames.length + 1 - s.n) }

/-- `_get_ob`, `wrappers.py` 82-84. -/
def Stack.getOb (s : Stack F) : Res (Stack F) (Lazy F) :=
  if s.frames.length = s.n then (s, .ok ⟨some s.frames, none⟩) else (s, .error .assertionError)

/-- `for _ in range(self.n_frames): self.frames.append(obs)`, `wrappers.py` 73-74. -/
def Stack.fill (s : Stack F) (v : Val F) : Nat → Stack F
  | 0 => s
  | k + 1 => (s.append v).fill v k

/-- `reset`, `wrappers.py` 71-75; `v` is what the environment returns. -/
def Stack.reset (s : Stack F) (v : Val F) : Res (Stack F) (Lazy F) := (s.fill v s.n).getOb

/-- `step`, `wrappers.py` 77-80; `o` is what the environment returns: five values do not fit four names. -/
def Stack.step (s : Stack F) (o : Out F I) : Res (Stack F) (Lazy F × I) :=
  match o with
  | .five _ _ => (s, .error .valueError)
  | .four f rest =>
    match (s.append (.frame f)).getOb with
    | (s', .error e) => (s', .error e)
    | (s', .ok l) => (s', .ok (l, rest))

/-- Calls to the wrapper. -/
inductive Call (F I : Type) where
  | reset (v : Val F)
  | step (o : Out F I)

/-- One call; the result is the observation. -/
def Stack.call (s : Stack F) : Call F I → Res (Stack F) (Lazy F)
  | .reset v => s.reset v
  | .step o =>
    match s.step o with
    | (s', .error e) => (s', .error e)
    | (s', .ok (l, _)) => (s', .ok l)

/-- Calls one after the other, each caught; the results in order. -/
def Stack.run (s : Stack F) : List (Call F I) → Stack F × List (Except Err (Lazy F))
  | [] => (s, [])
  | c :: cs => (((s.call c).1.run cs).1, (s.call c).2 :: ((s.call c).1.run cs).2)

/-- Reading an observation `k` times; the last result. -/
def Lazy.reads (l : Lazy F) : Nat → Res (Lazy F) (List F)
  | 0 => l.force
  | k + 1 => (l.force).1.reads k

/-- `ScaledFloatFrame.observation` on one pixel, `wrappers.py` 94-97. -/
def scaled {K : Type} [Field K] (x : K) : K := (x / 255 - 1 / 2) * 2

/-- `ScaledFloatFrame.observation_space`, `wrappers.py` 90-92: the declared bounds. -/
def declared {K : Type} [Field K] : K × K := (0, 1)

end Frames

end Verif
