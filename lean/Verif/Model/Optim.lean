import Verif.Base.Dict

/-!
# Weight decay groups: `ModifiedAdamW`

`emote/optimizers.py` 12-100, with the parts of PyTorch it relies on. A network is a tree of modules; modules and parameters
have identities (numbers), so that shared modules and tied weights are the same identity at several places. A name with dots
is the list of its components: PyTorch refuses component names that are empty or contain a dot. Children and parameters
that are `None` and cyclic networks are not modelled.
-/

namespace Verif

namespace Optim

mutual
/-- A module: its identity, the names of its classes (its class and all base classes), its own parameters (name and
identity) and its submodules. -/
inductive Mod where
  | mk (id : Nat) (classes : List String) (params : List (String × Nat)) (kids : Kids)
/-- The submodules, with their names. -/
inductive Kids where
  | nil
  | cons (name : String) (m : Mod) (rest : Kids)
end

def Mod.id : Mod → Nat
  | .mk i _ _ _ => i
def Mod.classes : Mod → List String
  | .mk _ c _ _ => c
def Mod.params : Mod → List (String × Nat)
  | .mk _ _ p _ => p
def Mod.kids : Mod → Kids
  | .mk _ _ _ k => k

/-- A name with dots. -/
abbrev Path := List String

mutual
/-- `torch.nn.Module.named_modules`: the module unless it is in the memo, then its submodules. -/
def visit : Mod → Path → List Nat → List Nat × List (Path × Mod)
  | .mk i c p kids, path, memo =>
    if i ∈ memo then (memo, []) else
    ((visitKids kids path (i :: memo)).1, (path, .mk i c p kids) :: (visitKids kids path (i :: memo)).2)
def visitKids : Kids → Path → List Nat → List Nat × List (Path × Mod)
  | .nil, _, memo => (memo, [])
  | .cons n m rest, path, memo =>
    ((visitKids rest path (visit m (path ++ [n]) memo).1).1,
      (visit m (path ++ [n]) memo).2 ++ (visitKids rest path (visit m (path ++ [n]) memo).1).2)
end

def namedModules (m : Mod) : List (Path × Mod) := (visit m [] []).2

/-- Skips parameters that have been seen. -/
def dedup : List (Path × Nat) → List Nat → List (Path × Nat)
  | [], _ => []
  | (n, v) :: l, memo => if v ∈ memo then dedup l memo else (n, v) :: dedup l (v :: memo)

/-- `torch.nn.Module.named_parameters`: of all modules, each parameter once, under its first name. -/
def namedParameters (m : Mod) : List (Path × Nat) :=
  dedup ((namedModules m).flatMap fun q => q.2.params.map fun p => (q.1 ++ [p.1], p.2)) []

/-- The lists that say which parameters decay, `optimizers.py` 12-17. -/
structure Cfg where
  white : List String
  black : List String
  exclude : List Path

/-- `pn.endswith(s)` for `s` without a dot: the last component does. -/
def ends (pn : Path) (s : String) : Bool :=
  match pn.getLast? with
  | none => s.toList.isSuffixOf []
  | some k => s.toList.isSuffixOf k.toList

/-- `isinstance(m, classes)` -/
def isInstance (m : Mod) (classes : List String) : Bool := m.classes.any (· ∈ classes)

/-- The branches of `optimizers.py` 41-53: `true` is `decay`, `false` is `no_decay`. -/
def vote (cfg : Cfg) (mn : Path) (m : Mod) (pn : Path) : Option Bool :=
  if mn ∈ cfg.exclude then some false
  else if ends pn "bias" then some false
  else if ends pn "weight" && isInstance m cfg.black then some false
  else if ends pn "weight" && isInstance m cfg.white then some true
  else none

/-- The loops of `optimizers.py` 37-53 as one list: the name and the vote. -/
def votes (cfg : Cfg) (net : Mod) : List (Path × Option Bool) :=
  (namedModules net).flatMap fun q => (namedParameters q.2).map fun p => (q.1 ++ p.1, vote cfg q.1 q.2 p.1)

/-- `set.add` -/
def add (s : List Path) (x : Path) : List Path := if x ∈ s then s else s ++ [x]

/-- Adding to the sets `decay` and `no_decay`. -/
def put (s : List Path × List Path) (v : Path × Option Bool) : List Path × List Path :=
  match v.2 with
  | some true => (add s.1 v.1, s.2)
  | some false => (s.1, add s.2 v.1)
  | none => s

/-- `separate_modules_for_weight_decay`, `optimizers.py` 12-55. The sets have no order; here they are lists. -/
def separate (cfg : Cfg) (net : Mod) : Except Err (List Path × List Path) :=
  if cfg.white.any (· ∈ cfg.black) then .error .assertionError else .ok ((votes cfg net).foldl put ([], []))

/-- `[param_dict[pn] for pn in names]`, `optimizers.py` 90 and 94. -/
def lookup (d : Dict Path Nat) : List Path → Except Err (List Nat)
  | [] => .ok []
  | n :: ns =>
    match Dict.get? d n with
    | none => .error .keyError
    | some v =>
      match lookup d ns with
      | .error e => .error e
      | .ok vs => .ok (v :: vs)

/-- `ModifiedAdamW.__init__`, `optimizers.py` 69-100, up to the groups of parameters, with weight decay and without.
`torch.optim.Optimizer` raises `ValueError` if a parameter is in both. -/
def groups (cfg : Cfg) (net : Mod) : Except Err (List Nat × List Nat) :=
  match separate cfg net with
  | .error e => .error e
  | .ok (decay, noDecay) =>
    match lookup (Dict.ofPairs (namedParameters net)) decay with
    | .error e => .error e
    | .ok g1 =>
      match lookup (Dict.ofPairs (namedParameters net)) noDecay with
      | .error e => .error e
      | .ok g2 => if g2.any (· ∈ g1) then .error .valueError else .ok (g1, g2)

end Optim

end Verif
