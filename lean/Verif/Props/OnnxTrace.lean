import Verif.Model.OnnxTrace
import Verif.Props.Mlp

/-!
# C126: an exported file is the policy of that moment
-/

namespace Verif

namespace Traced

variable {P T G Y : Type}

/-! ## Spec -/

/-- The exports left out. -/
def Spec.noExports : List (Op P G) → List (Op P G)
  | [] => []
  | .learn f :: ops => .learn f :: noExports ops
  | .export _ _ :: ops => noExports ops

/-- Training that uses no random numbers of torch's generator. -/
def Spec.NoDraws (ops : List (Op P G)) : Prop := ∀ f, .learn f ∈ ops → ∀ p g g', (f (p, g)).1 = (f (p, g')).1

/-! ## The inputs of a file -/

theorem inputShapes_ok {spaces : Dict String (List Nat)} {names : List String} {shapes : List (String × List Nat)}
    (h : inputShapes spaces names = .ok shapes) :
    shapes.map Prod.fst = names ∧ ∀ k shape, (k, shape) ∈ shapes → Dict.get? spaces k = some shape := by
  induction names generalizing shapes with
  | nil => simp only [inputShapes, Except.ok.injEq] at h; subst h; simp
  | cons k ks ih =>
    simp only [inputShapes] at h
    split at h
    · cases h
    · next shape hs =>
      split at h
      · cases h
      · next rest hr =>
        simp only [Except.ok.injEq] at h
        subst h
        obtain ⟨h1, h2⟩ := ih hr
        refine ⟨by simp [h1], fun k' s' hm => ?_⟩
        rcases List.mem_cons.mp hm with hm | hm
        · cases hm; exact hs
        · exact h2 _ _ hm

theorem inputShapes_all {spaces : Dict String (List Nat)} {names : List String} (h : ∀ k ∈ names, ∃ shape, Dict.get? spaces k = some shape) :
    ∃ shapes, inputShapes spaces names = .ok shapes := by
  induction names with
  | nil => exact ⟨_, rfl⟩
  | cons k ks ih =>
    obtain ⟨rest, hr⟩ := ih fun k' hk => h k' (List.mem_cons_of_mem _ hk)
    obtain ⟨shape, hs⟩ := h k List.mem_cons_self
    exact ⟨(k, shape) :: rest, by simp only [inputShapes, hs, hr]⟩

theorem inputShapes_none {spaces : Dict String (List Nat)} {names : List String} {k : String} (hk : k ∈ names)
    (h : Dict.get? spaces k = none) : inputShapes spaces names = .error .keyError := by
  induction names with
  | nil => cases hk
  | cons k' ks ih =>
    simp only [inputShapes]
    split
    · rfl
    · next shape hs =>
      have hne : k ≠ k' := by rintro rfl; rw [h] at hs; cases hs
      rw [ih ((List.mem_cons.mp hk).resolve_left hne)]

/-- **C126** (inputs): a file has the inputs of the agent proxy in their order and with the shapes of the observation space, then
`epsilon` with the shape of an action if it is wanted; its output is `actions`. A name without a space raises. -/
theorem C126_inputs (names : List String) (spaces : Dict String (List Nat)) (actions : List Nat) (eps : Bool) :
    ((∀ k ∈ names, ∃ shape, Dict.get? spaces k = some shape) →
      ∃ ex, Exporter.new names spaces actions eps = .ok ex ∧
        ex.inputs.map Prod.fst = names ++ (if eps then ["epsilon"] else []) ∧
        (∀ (i : Nat) k, names[i]? = some k → ∃ shape, Dict.get? spaces k = some shape ∧ ex.inputs[i]? = some (k, shape)) ∧
        (eps = true → ex.inputs[names.length]? = some ("epsilon", actions)) ∧ ex.outputs = [("actions", actions)]) ∧
    (∀ k ∈ names, Dict.get? spaces k = none → Exporter.new names spaces actions eps = .error .keyError) := by
  constructor
  · intro h
    obtain ⟨shapes, hs⟩ := inputShapes_all h
    obtain ⟨h1, h2⟩ := inputShapes_ok hs
    have hlen : shapes.length = names.length := by rw [← h1, List.length_map]
    refine ⟨_, by rw [Exporter.new, hs], ?_, ?_, ?_, rfl⟩
    · cases eps <;> simp [h1]
    · intro i k hk
      obtain ⟨shape, hsh⟩ := h k (List.mem_of_getElem? hk)
      refine ⟨shape, hsh, ?_⟩
      have hi : i < names.length := (List.getElem?_eq_some_iff.mp hk).1
      have hk' : shapes[i]? = some (k, shape) := by
        rw [← h1, List.getElem?_map] at hk
        obtain ⟨x, hx, hxk⟩ := Option.map_eq_some_iff.mp hk
        obtain ⟨k', shape'⟩ := x
        simp only at hxk
        subst hxk
        have := h2 _ _ (List.mem_of_getElem? hx)
        rw [hsh] at this
        cases this
        exact hx
      cases eps
      · exact hk'
      · simp only [if_true]
        rw [List.getElem?_append_left (by omega)]
        exact hk'
    · rintro rfl
      simp only [if_true]
      rw [← hlen, List.getElem?_append_right (Nat.le_refl _), Nat.sub_self]
      rfl
  · intro k hk hn
    rw [Exporter.new, inputShapes_none hk hn]

/-! ## The live network -/

theorem export_policy (lib : Lib P T G Y) (ex : Exporter) (props : Dict String String) (written : Except Err Unit) (s : State P G) :
    (exportOne lib ex props written s).1.policy = s.policy := by
  simp only [exportOne, trace]
  cases lib.forward (lib.train false s.policy) (randomArgs lib ex.inputs s.gen).1 with
  | error e => rfl
  | ok y => cases written <;> rfl

/-- **C126** (live): an export, successful or not, leaves the live network as it is, its mode included. -/
theorem C126_live (lib : Lib P T G Y) (ex : Exporter) (props : Dict String String) (written : Except Err Unit) (s : State P G) :
    (exportOne lib ex props written s).1.policy = s.policy ∧
    s.files <+: (exportOne lib ex props written s).1.files ∧
    ((exportOne lib ex props written s).2 ≠ .ok () → (exportOne lib ex props written s).1.files = s.files) := by
  refine ⟨export_policy .., ?_⟩
  simp only [exportOne, trace]
  cases lib.forward (lib.train false s.policy) (randomArgs lib ex.inputs s.gen).1 with
  | error e => exact ⟨List.prefix_rfl, fun _ => rfl⟩
  | ok y =>
    cases written with
    | error e => exact ⟨List.prefix_rfl, fun _ => rfl⟩
    | ok u => exact ⟨List.prefix_append _ _, fun h => absurd rfl h⟩

theorem step_files (lib : Lib P T G Y) (ex : Exporter) (s : State P G) (op : Op P G) : s.files <+: (step lib ex s op).files := by
  cases op with
  | learn f => exact List.prefix_rfl
  | «export» props written => exact (C126_live lib ex props written s).2.1

theorem run_files (lib : Lib P T G Y) (ex : Exporter) (s : State P G) (ops : List (Op P G)) : s.files <+: (run lib ex s ops).files := by
  induction ops generalizing s with
  | nil => exact List.prefix_rfl
  | cons op ops ih => exact (step_files lib ex s op).trans (ih _)

theorem feedAll_ok {feed : Dict String T} {names : List String} {args : List T} (hl : args.length = names.length)
    (h : ∀ (i : Nat) k x, names[i]? = some k → args[i]? = some x → Dict.get? feed k = some x) : feedAll feed names = .ok args := by
  induction names generalizing args with
  | nil => rw [List.eq_nil_of_length_eq_zero hl]; rfl
  | cons k ks ih =>
    cases args with
    | nil => simp at hl
    | cons x xs =>
      have h0 := h 0 k x rfl rfl
      have := ih (args := xs) (by simpa using hl) fun i k' x' hk hx => h (i + 1) k' x' hk hx
      simp only [feedAll, h0, this]

/-- **C126** (file): the file of a successful export, at any time, run on arguments given by their names, computes what the live
network of the moment of the export computes for these arguments in their order, in evaluation mode. What is trained or exported
afterwards does not change the file. -/
theorem C126_file (lib : Lib P T G Y) (ex : Exporter) (s : State P G) (props : Dict String String) (written : Except Err Unit)
    (hok : (exportOne lib ex props written s).2 = .ok ()) (later : List (Op P G)) :
    ∃ file, (run lib ex (step lib ex s (.export props written)) later).files[s.files.length]? = some file ∧
      file.version = s.counter ∧ file.props = props ∧ file.graph.inputs = ex.inputs.map Prod.fst ∧
      file.graph.outputs = ex.outputs.map Prod.fst ∧
      ∀ (feed : Dict String T) (args : List T), args.length = ex.inputs.length →
        (∀ (i : Nat) input x, ex.inputs[i]? = some input → args[i]? = some x → Dict.get? feed input.1 = some x) →
        file.graph.run lib feed = lib.forward (lib.train false s.policy) args := by
  have key : ∃ file : File P, (exportOne lib ex props written s).1.files = s.files ++ [file] ∧ file.version = s.counter ∧
      file.props = props ∧ file.graph = ⟨ex.inputs.map Prod.fst, ex.outputs.map Prod.fst, lib.train false s.policy⟩ := by
    simp only [exportOne, trace] at hok ⊢
    cases hf : lib.forward (lib.train false s.policy) (randomArgs lib ex.inputs s.gen).1 with
    | error e => rw [hf] at hok; cases hok
    | ok y =>
      rw [hf] at hok
      cases written with
      | error e => cases hok
      | ok u => exact ⟨_, rfl, rfl, rfl, rfl⟩
  obtain ⟨file, h1, h2, h3, h4⟩ := key
  refine ⟨file, ?_, h2, h3, by rw [h4], by rw [h4], fun feed args hl hfeed => ?_⟩
  · have := run_files lib ex (step lib ex s (.export props written)) later
    obtain ⟨t, ht⟩ := this
    rw [← ht]
    show ((exportOne lib ex props written s).1.files ++ t)[_]? = _
    rw [h1]
    simp
  · rw [h4, Graph.run]
    rw [feedAll_ok (args := args) (by simpa using hl) fun i k x hk hx => ?_]
    rw [List.getElem?_map] at hk
    obtain ⟨input, hi, rfl⟩ := Option.map_eq_some_iff.mp hk
    exact hfeed i input x hi hx

/-- **C126** (success): an export succeeds if the network in evaluation mode accepts each input it is traced with, and the file can
be written; if the network does not accept them, the export fails with its error, and no version is used up. -/
theorem C126_when (lib : Lib P T G Y) (ex : Exporter) (props : Dict String String) (written : Except Err Unit) (s : State P G) :
    ((∀ args, args.length = ex.inputs.length → ∃ y, lib.forward (lib.train false s.policy) args = .ok y) →
      (exportOne lib ex props written s).2 = written) ∧
    ∀ e, (∀ args, args.length = ex.inputs.length → lib.forward (lib.train false s.policy) args = .error e) →
      (exportOne lib ex props written s).2 = .error e ∧ (exportOne lib ex props written s).1.counter = s.counter := by
  have hlen : ∀ (l : List (String × List Nat)) g, (randomArgs lib l g).1.length = l.length := by
    intro l
    induction l with
    | nil => exact fun g => rfl
    | cons x l ih => exact fun g => by simp only [randomArgs, List.length_cons, ih]
  constructor
  · intro h
    obtain ⟨y, hy⟩ := h _ (hlen ex.inputs s.gen)
    simp only [exportOne, trace, hy]
    cases written <;> rfl
  · intro e h
    have hy := h _ (hlen ex.inputs s.gen)
    simp only [exportOne, trace, hy]
    exact ⟨trivial, trivial⟩

/-! ## Training with and without exports -/

/-- **C126**, partial: if the training draws no random numbers from torch's generator, then the network that is trained is the
same with and without exports. What is missing: training that does draw, see `C126_false`. -/
theorem C126_partial (lib : Lib P T G Y) (ex : Exporter) (s : State P G) (ops : List (Op P G)) (h : Spec.NoDraws ops) :
    (run lib ex s ops).policy = (run lib ex s (Spec.noExports ops)).policy := by
  suffices key : ∀ (ops : List (Op P G)) (s s' : State P G), Spec.NoDraws ops → s.policy = s'.policy →
      (run lib ex s ops).policy = (run lib ex s' (Spec.noExports ops)).policy from key ops s s h rfl
  intro ops
  induction ops with
  | nil => exact fun s s' _ h => h
  | cons op ops ih =>
    intro s s' hd hp
    have hd' : Spec.NoDraws ops := fun f hf => hd f (List.mem_cons_of_mem _ hf)
    cases op with
    | learn f =>
      refine ih _ _ hd' ?_
      show (f (s.policy, s.gen)).1 = (f (s'.policy, s'.gen)).1
      rw [← hp]
      exact hd f List.mem_cons_self _ _ _
    | «export» props written =>
      refine ih _ _ hd' ?_
      rw [← hp]
      exact export_policy ..

/-- C126 as claimed: exports have no influence on what is trained. -/
def C126_claim : Prop :=
  ∀ (P T G Y : Type) (lib : Lib P T G Y) (ex : Exporter) (s : State P G) (ops : List (Op P G)),
    (run lib ex s ops).policy = (run lib ex s (Spec.noExports ops)).policy

/-- A network is a number, the generator counts. -/
def counting : Lib Nat Nat Nat Nat := ⟨fun _ p => p, fun p xs => .ok (p + xs.sum), fun _ g => (g, g + 1)⟩

/-- The arguments for tracing are drawn from the generator that the training uses too: one export changes what is trained
afterwards. -/
theorem C126_false : ¬ C126_claim := by
  intro h
  have := h Nat Nat Nat Nat counting ⟨[("obs", [2])], [("actions", [1])]⟩ ⟨0, 0, 0, []⟩
    [.export [] (.ok ()), .learn fun x => (x.1 + x.2, x.2 + 1)]
  revert this
  decide +kernel

/-- **C126**: the files of a run have different versions, later files higher ones. -/
theorem C126_versions (lib : Lib P T G Y) (ex : Exporter) (s : State P G) (hs : s.files = []) (ops : List (Op P G)) :
    (run lib ex s ops).files.Pairwise fun f g => f.version < g.version := by
  suffices key : ∀ (ops : List (Op P G)) (s : State P G), (s.files.Pairwise fun f g => f.version < g.version) →
      (∀ f ∈ s.files, f.version < s.counter) → (run lib ex s ops).files.Pairwise fun f g => f.version < g.version from
    key ops s (by simp [hs]) (by simp [hs])
  intro ops
  induction ops with
  | nil => exact fun s h _ => h
  | cons op ops ih =>
    intro s h1 h2
    show (run lib ex (step lib ex s op) ops).files.Pairwise _
    cases op with
    | learn f => exact ih _ h1 h2
    | «export» props written =>
      simp only [step, exportOne, trace]
      cases lib.forward (lib.train false s.policy) (randomArgs lib ex.inputs s.gen).1 with
      | error e => exact ih _ h1 h2
      | ok y =>
        cases written with
        | error e => exact ih _ h1 fun f hf => Nat.lt_succ_of_lt (h2 f hf)
        | ok u =>
          refine ih _ ?_ ?_
          · rw [List.pairwise_append]
            refine ⟨h1, List.pairwise_singleton _ _, fun f hf g hg => ?_⟩
            rw [List.mem_singleton] at hg
            rw [hg]
            exact h2 f hf
          · intro f hf
            rw [List.mem_append, List.mem_singleton] at hf
            rcases hf with hf | rfl
            · exact Nat.lt_succ_of_lt (h2 f hf)
            · exact Nat.lt_succ_self _

/-! ## The built-in policy -/

theorem ofFn_eq {n : Nat} {f g : Fin n → ℝ} (h : f = g) : List.ofFn f = List.ofFn g := by rw [h]

/-- **C126** (Gaussian policy): the file of the built-in policy, run on observations and on numbers `epsilon` in place of those
that the policy would have drawn, returns the very actions that the live policy of the moment of the export would have returned in
training. So with standard normal numbers it acts as the policy that was trained. -/
theorem C126_gauss {p : Mlp.GaussNet} {obsDim actionDim : Nat} {hidden : List Nat} (hp : Mlp.Spec.Sized p obsDim actionDim hidden)
    (ht : p.training = true) (noise noise' : Nat → Nat → ℝ) (randn : List Nat → G → Mlp.Batch × G) (ex : Exporter) (key : String)
    (hkey : key ≠ "epsilon") (hex : ex.inputs.map Prod.fst = [key, "epsilon"]) (s : State Mlp.GaussNet G) (hs : s.policy = p)
    (props : Dict String String) (written : Except Err Unit)
    (hok : (exportOne (gaussLib noise' randn) ex props written s).2 = .ok ()) (later : List (Op Mlp.GaussNet G))
    (obs : Mlp.Batch) (hw : obs.width = obsDim) :
    ∃ file sample logp, (run (gaussLib noise' randn) ex (step (gaussLib noise' randn) ex s (.export props written)) later).files[s.files.length]? = some file ∧
      p.forward noise obs none = .ok (.pair sample logp) ∧
      file.graph.run (gaussLib noise' randn) [(key, obs), ("epsilon", ⟨actionDim, List.ofFn fun i : Fin obs.rows.length =>
        List.ofFn fun o : Fin actionDim => noise i o⟩)] = .ok (.single sample) := by
  obtain ⟨file, h1, _, _, _, _, h6⟩ := C126_file (gaussLib noise' randn) ex s props written hok later
  obtain ⟨sample, logp, g1, g2, g3, g4⟩ := Mlp.C124_policy hp ht noise obs hw none
  refine ⟨file, _, _, h1, g1, ?_⟩
  set eps : Mlp.Batch := ⟨actionDim, List.ofFn fun i : Fin obs.rows.length => List.ofFn fun o : Fin actionDim => noise i o⟩ with heps
  have hlen : ex.inputs.length = 2 := by rw [← List.length_map (f := Prod.fst), hex]; rfl
  rw [h6 [(key, obs), ("epsilon", eps)] [obs, eps] (by rw [hlen]; rfl) ?_]
  · have hp' : Mlp.Spec.Sized { p with training := false } obsDim actionDim hidden := ⟨hp.encoder, hp.dim, hp.mean, hp.logStd⟩
    have hwf : eps.WF := by
      intro r hr
      simp only [heps, List.mem_ofFn] at hr
      obtain ⟨i, rfl⟩ := hr
      simp [heps]
    obtain ⟨actions, e1, e2, e3⟩ := ((Mlp.C124_eval hp' rfl noise' obs hw).2 eps hwf).2 rfl (by simp [heps])
    show Mlp.GaussNet.forward { s.policy with training := false } noise' obs (some eps) = _
    rw [hs, e1]
    suffices h : actions = sample by rw [h]
    apply List.ext_getElem?
    intro i
    by_cases hi : i < obs.rows.length
    · have hrow : obs.rows[i]? = some obs.rows[i] := List.getElem?_eq_getElem hi
      have her : eps.rows[i]? = some (List.ofFn fun o : Fin actionDim => noise i o) := by
        simp [heps, hi]
      obtain ⟨e, he1, he2⟩ := e3 i _ _ hrow her
      rw [he2, (g4 i _ hrow).1]
      have : e = fun o : Fin actionDim => noise i o := (List.ofFn_injective he1).symm
      subst this
      rfl
    · rw [List.getElem?_eq_none (by omega), List.getElem?_eq_none (by omega)]
  · intro i input x hi hx
    have hk : (ex.inputs.map Prod.fst)[i]? = some input.1 := by rw [List.getElem?_map, hi]; rfl
    rw [hex] at hk
    match i, hk, hx with
    | 0, hk, hx =>
      simp only [List.getElem?_cons_zero, Option.some.injEq] at hk hx
      subst hk hx
      simp [Dict.get?]
    | 1, hk, hx =>
      simp only [List.getElem?_cons_succ, List.getElem?_cons_zero, Option.some.injEq] at hk hx
      rw [← hk, ← hx]
      simp [Dict.get?, hkey]
    | i + 2, hk, _ => simp at hk

/-- **C126** (Gaussian policy): without `requires_epsilon` the built-in policy cannot be exported. -/
theorem C126_needs_epsilon {p : Mlp.GaussNet} {obsDim actionDim : Nat} {hidden : List Nat}
    (hp : Mlp.Spec.Sized p obsDim actionDim hidden) (noise : Nat → Nat → ℝ) (randn : List Nat → G → Mlp.Batch × G) (ex : Exporter)
    (input : String × List Nat) (hex : ex.inputs = [input]) (s : State Mlp.GaussNet G) (hs : s.policy = p)
    (props : Dict String String) (written : Except Err Unit) :
    (exportOne (gaussLib noise randn) ex props written s).2 ≠ .ok () := by
  have hp' : Mlp.Spec.Sized { p with training := false } obsDim actionDim hidden := ⟨hp.encoder, hp.dim, hp.mean, hp.logStd⟩
  have : ∃ e, (gaussLib noise randn).forward ((gaussLib noise randn).train false s.policy)
      (randomArgs (gaussLib noise randn) ex.inputs s.gen).1 = .error e := by
    rw [hex, hs]
    show ∃ e, Mlp.GaussNet.forward { p with training := false } noise _ none = .error e
    by_cases hw : ((randn (1 :: input.2) s.gen).1).width = obsDim
    · exact ⟨_, (Mlp.C124_eval hp' rfl noise _ hw).1⟩
    · exact ⟨_, Mlp.C124_refuses hp' noise _ hw none⟩
  obtain ⟨e, he⟩ := this
  simp only [exportOne, trace, he]
  exact fun h => by cases h

/-! ## Examples -/

section Demo

example : Exporter.new ["goal", "obs"] [("obs", [4]), ("goal", [2, 2])] [3] true =
    .ok ⟨[("goal", [2, 2]), ("obs", [4]), ("epsilon", [3])], [("actions", [3])]⟩ := by decide +kernel

/-- In training mode this network adds its own number, in evaluation mode it does not; train, export, train, export. -/
def modal : Lib (Bool × Nat) Nat Nat Nat :=
  ⟨fun b p => (b, p.2), fun p xs => .ok (p.2 + 10 * xs.sum + if p.1 then 1000 else 0), fun _ g => (g, g + 1)⟩

def demoRun : State (Bool × Nat) Nat :=
  run modal ⟨[("goal", [2, 2]), ("obs", [4])], [("actions", [3])]⟩ ⟨(true, 5), 0, 0, []⟩
    [.export [("n", "1")] (.ok ()), .learn fun x => ((x.1.1, x.1.2 + 2), x.2), .export [] (.error .osError), .export [] (.ok ())]

example : demoRun.policy = (true, 7) ∧ demoRun.gen = 6 ∧
    demoRun.files.map (fun f => (f.version, f.props, f.graph.run modal [("obs", 1), ("goal", 2)])) =
      [(0, [("n", "1")], .ok 35), (2, [], .ok 37)] := by decide +kernel

/-- The small policy of C124 is exported; the file does what the policy does with the numbers that it drew. -/
example : ∃ file sample logp, (run (gaussLib (fun _ _ => 0) fun _ g => (⟨1, [[0]]⟩, g)) ⟨[("obs", [1]), ("epsilon", [1])], [("actions", [1])]⟩
        (step (gaussLib (fun _ _ => 0) fun _ g => (⟨1, [[0]]⟩, g)) ⟨[("obs", [1]), ("epsilon", [1])], [("actions", [1])]⟩
          ⟨Mlp.small, (), 0, []⟩ (.export [] (.ok ()))) []).files[0]? = some file ∧
      Mlp.small.forward (fun _ _ => 2) ⟨1, [[3]]⟩ none = .ok (.pair sample logp) ∧
      file.graph.run (gaussLib (G := Unit) (fun _ _ => 0) fun _ g => (⟨1, [[0]]⟩, g)) [("obs", ⟨1, [[3]]⟩), ("epsilon", ⟨1, List.ofFn fun _ : Fin 1 =>
        List.ofFn fun _ : Fin 1 => 2⟩)] = .ok (.single sample) := by
  refine C126_gauss Mlp.small_sized rfl _ _ _ _ "obs" (by decide) rfl _ rfl [] (.ok ()) ?_ [] ⟨1, [[3]]⟩ rfl
  have hp' : Mlp.Spec.Sized { Mlp.small with training := false } 1 1 [2, 1] :=
    ⟨Mlp.small_sized.encoder, Mlp.small_sized.dim, Mlp.small_sized.mean, Mlp.small_sized.logStd⟩
  obtain ⟨a, h, _⟩ := ((Mlp.C124_eval hp' rfl (fun _ _ => 0) ⟨1, [[0]]⟩ rfl).2 ⟨1, [[0]]⟩ (by simp [Mlp.Batch.WF])).2 rfl rfl
  simp only [exportOne, trace, gaussLib, randomArgs, h]

end Demo

end Traced

end Verif
