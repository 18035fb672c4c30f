import Verif.Model.Callback

/-!
# What a hook should get, and what happens to its result
-/

namespace Verif.Spec

open Verif

variable {W : Type u} {V : Type v}

/-- A hook written in the documented way: declared parameters only, those bound to keys by `keys_from_member` among
them, and the attributes named there exist. -/
structure WellDeclared (attrs : Dict String String) (sig : Sig) : Prop where
  nodup : (sig.args ++ sig.kwonly).Nodup
  noSelf : "self" ∉ sig.args ++ sig.kwonly
  varargs : sig.varargs = false
  varkw : sig.varkw = false
  required : ∀ p ∈ sig.required, p ∈ sig.args ++ sig.kwonly
  members : (Dict.keys sig.members).Nodup
  declared : ∀ p ∈ sig.members, p.1 ∈ sig.args ++ sig.kwonly ∧ (attrs.get? p.2).isSome

/-- The key to which a parameter is bound by `keys_from_member`. -/
def keyOf (attrs : Dict String String) (sig : Sig) (p : String) : Option String :=
  (Dict.get? sig.members p).bind attrs.get?

/-- The value that parameter `p` should get: a declared parameter that is not bound to a key gets what `look` says for
its name, one that is bound what `lookKey` says for the key. -/
def wanted (attrs : Dict String String) (sig : Sig) (look lookKey : String → Option (PyVal V)) (p : String) :
    Option (PyVal V) :=
  match keyOf attrs sig p with
  | some key => lookKey key
  | none => if p ∈ sig.args ++ sig.kwonly then look p else none

/-- `hook` calls the method with exactly the arguments `args`, and its outcome is related by `R` to that of the
method; or it is a `TypeError` as a parameter without default gets nothing. -/
def Receives (m : Method W V) (args : String → Option (PyVal V)) (w : GWorld W V)
    (R : HookResult W V → HookResult W V → Prop) (outcome : HookResult W V) : Prop :=
  ((∀ p ∈ m.sig.required, (args p).isSome) →
    ∃ b : Binding V, (∀ p, Dict.get? b.named p = args p) ∧ b.rest = [] ∧ b.extra = [] ∧ R (m.body b w) outcome) ∧
  ((∃ p ∈ m.sig.required, args p = none) → outcome = (w, .error (.error .typeError)))

/-- Keys of dicts are distinct: what Python guarantees, here for the dict objects and the returned dict after a method
has run. -/
def DistinctKeys (r : HookResult W V) : Prop :=
  (∀ i, (Dict.keys (r.1.heap i)).Nodup) ∧ ∀ res, r.2 = .ok (some res) → (Dict.keys res).Nodup

/-- `before` is the outcome of a method, `after` that of its hook in a callback with the data group `group` that is
the dict object `a`: a dict returned under the name of the group is merged into the group and nothing else; all
other results go on as they are. -/
structure Delivered (group : String) (a : Nat) (before after : HookResult W V) : Prop where
  /-- nothing for the group -/
  other : (∀ res x, before.2 = .ok (some res) → Dict.get? res group ≠ some x) → after = before
  /-- results for the group -/
  merged : ∀ res b, before.2 = .ok (some res) → Dict.get? res group = some (.dict b) →
    after.1.rest = before.1.rest ∧ (∀ i, i ≠ a → after.1.heap i = before.1.heap i) ∧
    (∀ k, Dict.get? (after.1.heap a) k = (Dict.get? (before.1.heap b) k).or (Dict.get? (before.1.heap a) k)) ∧
    ∃ res', after.2 = .ok (some res') ∧ ∀ k, Dict.get? res' k = if k = group then none else Dict.get? res k

end Verif.Spec
