import Verif.Model.Callback

/-!
# Which methods of a callback are wrapped

`CallbackMeta`, `emote/callback.py` 98-166. A class is the list of the bodies that Python looks through for an attribute
(its `__mro__` without `object`), the most derived one first. The classes of emote derive from one callback class each,
besides mixins that know nothing of callbacks (`LoggingMixin`); several callback classes as bases are not modelled.
Attributes that a constructor puts into the instance are not modelled either.
-/

namespace Verif

namespace Meta

variable {W : Type u} {V : Type v}

/-- A function in the body of a class: its `__qualname__`, whether `Callback.extend` has marked it (157-159), and what it
does. -/
structure Func (W : Type u) (V : Type v) where
  qualname : String
  marked : Bool
  method : Method W V

/-- The body of a class. `mixin` says that the class is not made by `CallbackMeta`. -/
structure Body (W : Type u) (V : Type v) where
  name : String
  mixin : Bool
  fields : Dict String (Func W V)

/-- The names in lines 111-120 -/
def hookNames : List String :=
  ["restore_state", "begin_training", "begin_cycle", "begin_batch", "backward", "end_batch", "end_cycle", "end_training"]

/-- The loop 127-129 -/
def addMarked (fields acc : Dict String (Func W V)) : Dict String (Func W V) :=
  fields.foldl (fun acc kv => if kv.2.marked then acc.set kv.1 kv.2 else acc) acc

/-- `self._callbacks`, 102-131 -/
def callbacks : List (Body W V) → Dict String (Func W V)
  | [] => []
  | b :: rest =>
    if b.mixin then callbacks rest
    else addMarked b.fields
      (if b.name = "Callback" then b.fields.filter fun kv => decide (kv.1 ∈ hookNames) else callbacks rest)

/-- `getattr(instance, name)`, 137: the first body that has it -/
def lookup : List (Body W V) → String → Option (Func W V)
  | [], _ => none
  | b :: rest, name => match b.fields.get? name with
    | some f => some f
    | none => lookup rest name

/-- What a wrapped or plain method is to its caller. -/
abbrev Call (W : Type u) (V : Type v) := List (PyVal V) → Dict String (PyVal V) → GWorld W V → HookResult W V

/-- The loop of `__call__`, 136-153: what is put into the instance -/
def patch (attrs : Dict String String) (group : Option String) (cls : List (Body W V)) :
    Dict String (Func W V) → Except Err (Dict String (Call W V))
  | [] => .ok []
  | (name, f) :: rest => match lookup cls name with
    | none => .error .attributeError
    | some g =>
      if g.qualname = f.qualname then patch attrs group cls rest
      else match wrapMethod attrs group g.method with
        | .error e => .error e
        | .ok c => match patch attrs group cls rest with
          | .error e => .error e
          | .ok d => .ok ((name, c) :: d)

/-- `__call__`, 133-155: the attributes that the new instance gets -/
def construct (attrs : Dict String String) (group : Option String) (cls : List (Body W V)) :
    Except Err (Dict String (Call W V)) :=
  patch attrs group cls (callbacks cls)

/-- The method `name` of an instance: what has been put into it, else that of the class. -/
def attr (cls : List (Body W V)) (inst : Dict String (Call W V)) (name : String) : Option (Call W V) :=
  match inst.get? name with
  | some c => some c
  | none => (lookup cls name).map fun f => f.method.call

/-- The signature `(self, *args, **kwargs)`, 189-226 and `loss.py` 57 -/
def anything : Sig := ⟨[], [], [], true, true, []⟩

/-- The empty hooks of `Callback`, 189-226 -/
def nothing : Method W V := ⟨anything, fun _ w => (w, .ok none)⟩

/-- `Callback`, 169-242, with its hooks -/
def root : Body W V := ⟨"Callback", false, hookNames.map fun n => (n, ⟨"Callback." ++ n, false, nothing⟩)⟩

/-- `LossCallback`, `loss.py` 16-119: `backward` as function of the method `loss` of the instance (it calls it with its own
arguments, 59; `after` is what follows, 60-69), and `loss`, which subclasses are to override and which raises. -/
def lossCallback (after : HookResult W V → HookResult W V) (loss : Call W V) : Body W V :=
  ⟨"LossCallback", false,
    [("backward", ⟨"LossCallback.backward", false, anything, fun b w => after (loss b.rest b.extra w)⟩),
      ("loss", ⟨"LossCallback.loss", true, anything, fun _ w => (w, .error (.error .runtimeError))⟩)]⟩

end Meta

end Verif
