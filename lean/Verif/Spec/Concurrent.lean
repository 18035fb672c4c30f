/-!
# Linearizability

What a concurrent object promises, from outside: calls are invoked and return; every execution looks as if each call
had taken effect at one moment between the two.
-/

namespace Verif

/-- What can be seen of an execution. -/
inductive HEvent (C : Type u) (R : Type v) where
  | inv (t : Nat) (c : C)
  | ret (t : Nat) (c : C) (r : R)

/-- The same with the moments where calls take effect. -/
inductive LEvent (C : Type u) (R : Type v) where
  | inv (t : Nat) (c : C)
  | lin (t : Nat) (c : C) (r : R)
  | ret (t : Nat) (c : C) (r : R)

namespace Spec

variable {C : Type u} {R : Type v} {S : Type w}

/-- Without the moments. -/
def visible : List (LEvent C R) → List (HEvent C R)
  | [] => []
  | .inv t c :: l => .inv t c :: visible l
  | .lin _ _ _ :: l => visible l
  | .ret t c r :: l => .ret t c r :: visible l

/-- The calls in the order in which they take effect. -/
def effects : List (LEvent C R) → List (Nat × C × R)
  | [] => []
  | .lin t c r :: l => (t, c, r) :: effects l
  | _ :: l => effects l

/-- The thread of a visible event. -/
def actor : HEvent C R → Nat
  | .inv t _ => t
  | .ret t _ _ => t

/-- The thread of an event. -/
def thread : LEvent C R → Nat
  | .inv t _ => t
  | .lin t _ _ => t
  | .ret t _ _ => t

/-- The events of one thread. -/
def ofThread (t : Nat) (l : List (LEvent C R)) : List (LEvent C R) := l.filter fun e => thread e == t

/-- One complete call. -/
def complete (t : Nat) (c : C × R) : List (LEvent C R) := [.inv t c.1, .lin t c.1 c.2, .ret t c.1 c.2]

/-- The call a thread is in: none, one that has had no effect yet, or one that had its effect. -/
inductive Open (t : Nat) : List (LEvent C R) → Prop where
  | none : Open t []
  | before (c : C) : Open t [.inv t c]
  | after (c : C) (r : R) : Open t [.inv t c, .lin t c r]

/-- Every thread makes one call after the other, and each takes effect between its invocation and its return. -/
def WellFormed (l : List (LEvent C R)) : Prop :=
  ∀ t, ∃ (calls : List (C × R)) (tail : List (LEvent C R)), ofThread t l = calls.flatMap (complete t) ++ tail ∧ Open t tail

/-- The calls, one after the other, take the sequential object from one state to another and give these results. -/
inductive Legal (step : C → S → R → S → Prop) : S → List (Nat × C × R) → S → Prop where
  | nil (s : S) : Legal step s [] s
  | snoc {s s' s'' : S} {l : List (Nat × C × R)} {t : Nat} {c : C} {r : R} (h : Legal step s l s')
      (hs : step c s' r s'') : Legal step s (l ++ [(t, c, r)]) s''

/-- The history is linearizable: moments of effect can be put into it that explain it, and the sequential object ends
in state `s`. -/
def LinearizableTo (step : C → S → R → S → Prop) (s₀ : S) (h : List (HEvent C R)) (s : S) : Prop :=
  ∃ l, visible l = h ∧ WellFormed l ∧ Legal step s₀ (effects l) s

def Linearizable (step : C → S → R → S → Prop) (s₀ : S) (h : List (HEvent C R)) : Prop :=
  ∃ s, LinearizableTo step s₀ h s

/-- The calls that have returned. -/
def returned : List (HEvent C R) → List (Nat × C × R)
  | [] => []
  | .ret t c r :: l => (t, c, r) :: returned l
  | _ :: l => returned l

/-- The calls that were made. -/
def invoked : List (HEvent C R) → List (Nat × C)
  | [] => []
  | .inv t c :: l => (t, c) :: invoked l
  | _ :: l => invoked l

end Spec

end Verif
