import Verif.Base.Dict

/-!
# Stateful computations that may raise

A Python method call is a function `σ → Res σ α`: the new state of the object **and** either the
returned value or the exception. State that was mutated before a `raise` stays mutated.
-/

namespace Verif

deriving instance DecidableEq for Except

/-- Outcome of a method call: new state, and value or exception. -/
abbrev Res (σ : Type u) (α : Type v) := σ × Except Err α

namespace Res

/-- Sequential composition: go on if there was no exception. -/
def andThen {σ : Type u} {α : Type v} {β : Type w} (r : Res σ α) (f : σ → α → Res σ β) : Res σ β :=
  match r with
  | (s, .error e) => (s, .error e)
  | (s, .ok a) => f s a

variable {σ : Type u} {α : Type v} {β : Type w}

@[simp] theorem andThen_ok (s : σ) (a : α) (f : σ → α → Res σ β) :
    andThen (s, .ok a) f = f s a := rfl

@[simp] theorem andThen_error (s : σ) (e : Err) (f : σ → α → Res σ β) :
    andThen (s, .error e) f = (s, .error e) := rfl

theorem andThen_eq_ok {r : Res σ α} {f : σ → α → Res σ β} {s' : σ} {b : β} :
    andThen r f = (s', .ok b) ↔ ∃ s a, r = (s, .ok a) ∧ f s a = (s', .ok b) := by
  obtain ⟨s, x⟩ := r
  cases x with
  | error e => simp [andThen]
  | ok a =>
    simp only [andThen]
    constructor
    · intro h; exact ⟨s, a, rfl, h⟩
    · rintro ⟨s₁, a₁, h₁, h₂⟩
      injection h₁ with h₃ h₄
      injection h₄ with h₄
      subst h₃ h₄; exact h₂

/-- Run a list of actions for effect, stopping at the first exception (`for x in xs: body`). -/
def forEach (xs : List α) (body : α → σ → Res σ Unit) (s : σ) : Res σ Unit :=
  match xs with
  | [] => (s, .ok ())
  | x :: xs => andThen (body x s) fun s _ => forEach xs body s

/-- The state has a component `τ` whose method is called. -/
def lift {τ : Type w} (put : τ → σ) (r : Res τ α) : Res σ α := (put r.1, r.2)

@[simp] theorem lift_fst {τ : Type w} (put : τ → σ) (r : Res τ α) : (lift put r).1 = put r.1 := rfl
@[simp] theorem lift_snd {τ : Type w} (put : τ → σ) (r : Res τ α) : (lift put r).2 = r.2 := rfl

end Res
end Verif
