import Verif.Base.Dict
import Mathlib.Analysis.SpecialFunctions.Exp

/-!
# The ε-greedy policy of the Q-learning example

`experiments/gym/train_dqn_cartpole.py`: `DQNPolicy` (88-152). Numbers are exact. The network has at least one action; the
values that it gives are arguments here, a row of them for each environment. The two random generators are streams of
numbers: `u` for `np.random.rand()`, `c` for `random.randint(0, action_dim - 1)`, and how much of them was used is part of
the state. Printing epsilon (135-140) is left out.
-/

namespace Verif

namespace EpsGreedy

variable {d : Nat} [NeZero d]

/-- The fields of `DQNPolicy` (113-116), and how many numbers were taken from the generators. -/
structure State where
  initial : ℝ
  target : ℝ
  duration : Int
  steps : Nat
  rands : Nat
  ints : Nat

/-- `DQNPolicy.__init__`, 107-117 -/
def State.new (initial target : ℝ) (duration : Int) : State := ⟨initial, target, duration, 0, 0, 0⟩

/-- `epsilon`, 130-132 -/
noncomputable def epsilon (s : State) : Except Err ℝ :=
  if s.duration = 0 then .error .zeroDivision
  else .ok (s.target + (s.initial - s.target) * Real.exp (-1 * s.steps / s.duration))

open Classical in
/-- `q_values[i].argmax().item()`, 150: the first of the largest values -/
noncomputable def argmax (q : Fin d → ℝ) : Fin d :=
  (List.finRange d).foldl (fun best i => if q best < q i then i else best) 0

open Classical in
/-- The loop over the environments, 146-151 -/
noncomputable def loop (eps : ℝ) (u : Nat → ℝ) (c : Nat → Fin d) : List (Fin d → ℝ) → Nat → Nat → List (Fin d) × Nat × Nat
  | [], i, j => ([], i, j)
  | q :: qs, i, j =>
    if u i < eps then
      let rest := loop eps u c qs (i + 1) (j + 1)
      (c j :: rest.1, rest.2)
    else
      let rest := loop eps u c qs (i + 1) j
      (argmax q :: rest.1, rest.2)

/-- `DQNPolicy.forward`, 120-152 -/
noncomputable def forward (u : Nat → ℝ) (c : Nat → Fin d) (qs : List (Fin d → ℝ)) (s : State) :
    State × Except Err (List (Fin d)) :=
  match epsilon s with
  | .error e => (s, .error e)
  | .ok eps =>
    let r := loop eps u c qs s.rands s.ints
    ({ s with steps := s.steps + 1, rands := r.2.1, ints := r.2.2 }, .ok r.1)

/-- A sequence of calls: `world` says what the network gives in the next call, after the actions that were chosen so far. -/
noncomputable def calls (u : Nat → ℝ) (c : Nat → Fin d) (world : List (List (Fin d)) → List (Fin d → ℝ)) :
    Nat → State → List (List (Fin d)) → Except Err (State × List (List (Fin d)))
  | 0, s, past => .ok (s, past)
  | n + 1, s, past =>
    match forward u c (world past) s with
    | (_, .error e) => .error e
    | (s', .ok as) => calls u c world n s' (past ++ [as])

end EpsGreedy

end Verif
