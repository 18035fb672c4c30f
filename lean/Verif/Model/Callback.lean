import Verif.Model.Trainer

/-!
# How hooks get their arguments

`emote/callback.py` 12-159: the wrappers put around the overridden hooks of a callback when it is constructed.

A data group is a dict object that a value of the trainer's state refers to; it is changed in place. So dict
objects live in a heap (`GWorld.heap`), and a value is a reference to one, an exception, or anything else. The type
errors of values that are not dicts where a dict is needed are simplified: any such value is a `typeError` (Python
would look for substrings in a string, and so on). The warning for `*args`/`**kwargs` is not modelled.
-/

namespace Verif

/-- A Python value as far as the wrappers look at it. -/
inductive PyVal (V : Type u) where
  | val (v : V)
  | dict (addr : Nat)
  | exc (e : Exc)
  deriving DecidableEq, Repr

/-- Dict objects, and the rest of the world. -/
structure GWorld (W : Type u) (V : Type v) where
  heap : Nat → Dict String (PyVal V)
  rest : W

/-- What a function gets: its named parameters (those left to their defaults are missing), `*args`, `**kwargs`. -/
structure Binding (V : Type u) where
  named : Dict String (PyVal V)
  rest : List (PyVal V)
  extra : Dict String (PyVal V)
  deriving DecidableEq, Repr

/-- The signature of a method, with `self` left out: positional and keyword-only parameters, those without default,
and whether there are `*args` and `**kwargs`. `members` is what `keys_from_member` attached to it
(`callback.py` 152-157): names of parameters with names of attributes. -/
structure Sig where
  args : List String
  kwonly : List String
  required : List String
  varargs : Bool
  varkw : Bool
  members : List (String × String)
  deriving DecidableEq, Repr

/-- A result of a hook: nothing, or a dict. -/
abbrev HookResult (W : Type u) (V : Type v) :=
  GWorld W V × Except Exc (Option (Dict String (PyVal V)))

/-- A method: its signature and what it does with its arguments. -/
structure Method (W : Type u) (V : Type v) where
  sig : Sig
  body : Binding V → GWorld W V → HookResult W V

section

variable {W : Type u} {V : Type v}

/-- Python's binding of arguments, for a bound method (`self` is taken): positional arguments first; a keyword that
is `self`, or already taken, or unknown without `**kwargs`, is a `TypeError`, and so is a missing parameter. -/
def Sig.bind (sig : Sig) (pos : List (PyVal V)) (kw : Dict String (PyVal V)) : Except Err (Binding V) :=
  let taken := sig.args.zip pos
  let rest := pos.drop sig.args.length
  let isParam := fun (k : String) => decide (k ∈ sig.args ++ sig.kwonly)
  let named := taken ++ kw.filter fun kv => isParam kv.1
  if (rest ≠ [] ∧ sig.varargs = false) ∨ kw.any (fun kv => kv.1 = "self" || decide (kv.1 ∈ Dict.keys taken)) ∨
      (sig.varkw = false ∧ kw.any fun kv => !isParam kv.1) ∨ sig.required.any (fun p => !Dict.contains named p) then
    .error .typeError
  else .ok ⟨named, rest, kw.filter fun kv => !isParam kv.1⟩

/-- Calling the method itself. -/
def Method.call (m : Method W V) (pos : List (PyVal V)) (kw : Dict String (PyVal V)) (w : GWorld W V) : HookResult W V :=
  match m.sig.bind pos kw with
  | .error e => (w, .error (.error e))
  | .ok b => m.body b w

/-- `_get_complex`, `callback.py` 12-22: `attrs` are the attributes of the callback. What is left of the argument
names, and the parameters with their keys. -/
def getComplex (attrs : Dict String String) : List (String × String) → List String → Dict String String →
    Except Err (List String × Dict String String)
  | [], names, acc => .ok (names, acc)
  | (arg, member) :: rest, names, acc => match attrs.get? member with
    | none => .error .attributeError
    | some key =>
      if arg ∈ names then getComplex attrs rest (names.erase arg) (acc.set arg key) else .error .valueError

/-- `{v: kwargs[v] for v in names if v in kwargs}` -/
def pick (kw : Dict String (PyVal V)) : List String → Dict String (PyVal V)
  | [] => []
  | v :: vs => match kw.get? v with
    | none => pick kw vs
    | some x => (v, x) :: pick kw vs

/-- The loop of `_make_no_group`, `callback.py` 38-42 -/
def addRenamed (kw : Dict String (PyVal V)) : Dict String String → Dict String (PyVal V) → Dict String (PyVal V)
  | [], acc => acc
  | (arg, key) :: rest, acc => match kw.get? key with
    | none => addRenamed kw rest acc
    | some x => addRenamed kw rest (acc.set arg x)

/-- `_inner_no_group`, `callback.py` 35-44. `names` contains `self`. -/
def callPlain (m : Method W V) (names : List String) (renamed : Dict String String) (pos : List (PyVal V))
    (kw : Dict String (PyVal V)) (w : GWorld W V) : HookResult W V :=
  m.call pos (addRenamed kw renamed (pick kw (names.drop pos.length))) w

/-- The loop of `_make_group_unpack`, `callback.py` 57-62. The value comes from `kwargs` in both branches. -/
def addRenamedGroup (g kw : Dict String (PyVal V)) : Dict String String →
    Dict String (PyVal V) × Dict String (PyVal V) → Except Err (Dict String (PyVal V) × Dict String (PyVal V))
  | [], acc => .ok acc
  | (arg, key) :: rest, (inner, outer) =>
    if g.contains key then
      match kw.get? key with
      | none => .error .keyError
      | some x => addRenamedGroup g kw rest (inner.set arg x, outer)
    else match kw.get? key with
      | none => addRenamedGroup g kw rest (inner, outer)
      | some x => addRenamedGroup g kw rest (inner, outer.set arg x)

/-- `callback.py` 64-69, `a` being the address of the group: a result under the name of the group is merged into the
group and taken out. -/
def mergeGroup (group : String) (a : Nat) : HookResult W V → HookResult W V
  | (w, .ok (some res)) => match Dict.get? res group with
    | none => (w, .ok (some res))
    | some (.dict b) =>
      ({ w with heap := fun i => if i = a then (w.heap a).update (w.heap b) else w.heap i },
        .ok (some (Dict.erase res group)))
    | some _ => (w, .error (.error .typeError))
  | r => r

/-- `_inner_fixed_group`, `callback.py` 51-69 -/
def callGroup (m : Method W V) (group : String) (names : List String) (renamed : Dict String String)
    (pos : List (PyVal V)) (kw : Dict String (PyVal V)) (w : GWorld W V) : HookResult W V :=
  match kw.get? group with
  | none => (w, .error (.error .keyError))
  | some (.dict a) =>
    let g := w.heap a
    let names := names.drop pos.length
    match addRenamedGroup g kw renamed (pick g names, pick kw (names.filter fun v => !g.contains v)) with
    | .error e => (w, .error (.error e))
    | .ok (inner, outer) => mergeGroup group a (m.call pos (inner ++ outer) w)
  | some _ => (w, .error (.error .typeError))

/-- `_wrap_callback_function`, `callback.py` 74-95: what the wrapped method does when it is called, or the exception
that wrapping it raises. `group = none` is `use_group=False`. -/
def wrapMethod (attrs : Dict String String) (group : Option String) (m : Method W V) :
    Except Err (List (PyVal V) → Dict String (PyVal V) → GWorld W V → HookResult W V) :=
  if m.sig.varargs || m.sig.varkw then .ok m.call
  else if m.sig.args ++ m.sig.kwonly = [] then .ok fun _ _ w => m.call [] [] w
  else match getComplex attrs m.sig.members ("self" :: (m.sig.args ++ m.sig.kwonly)) [] with
    | .error e => .error e
    | .ok (names, renamed) => match group with
      | none => .ok (callPlain m names renamed)
      | some g => .ok (callGroup m g names renamed)

/-- The name of the group, `callback.py` 134-136: `data_group` of the instance, unless it is missing or empty, else
`DATA_GROUP` of the class. -/
def groupName (instance_ class_ : Option String) : Option String :=
  match instance_ with
  | none => class_
  | some "" => class_
  | some g => some g

/-- The positional arguments of a hook: `end_training` gets the exception, `trainer.py` 144. -/
def Hook.positional : Hook → List (PyVal V)
  | .endTraining ex => [.exc ex]
  | _ => []

/-- What the hook of a constructed callback does, `callback.py` 125-147; hooks that are not overridden do nothing
(189-226) and are not wrapped. -/
def hookOf (attrs : Dict String String) (group : Option String) (m : Option (Method W V)) (h : Hook)
    (kw : Dict String (PyVal V)) (w : GWorld W V) : HookResult W V :=
  match m with
  | none => (w, .ok none)
  | some m => match wrapMethod attrs group m with
    | .error e => (w, .error (.error e))
    | .ok f => f h.positional kw w

/-- A callback as the trainer sees it. (Construction raises if a method cannot be wrapped; then there is no callback.
Here its hooks raise.) -/
def mkCallback (ident : Nat) (order : Int) (cycle : Option Int) (attrs : Dict String String) (group : Option String)
    (methods : Hook → Option (Method W V)) : Callback (GWorld W V) (PyVal V) :=
  ⟨ident, order, cycle, fun h st w => hookOf attrs group (methods h) h st w⟩

end

end Verif
