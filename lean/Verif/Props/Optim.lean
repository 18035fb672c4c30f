import Verif.Model.Optim
import Verif.Lemmas.Dict
import Verif.Lemmas.List
import Mathlib.Data.List.Nodup

/-!
# Weight decay groups (C69)

For all networks and lists of classes and layers.
-/

namespace Verif

namespace Optim

/-! ## Specification -/

/-- The submodules of a module. -/
def Spec.list : Kids → List (String × Mod)
  | .nil => []
  | .cons n m rest => (n, m) :: Spec.list rest

/-- `x` is found in `m` under the path. -/
inductive Spec.At : Mod → Path → Mod → Prop
  | here (m : Mod) : Spec.At m [] m
  | child {m : Mod} {n : String} {c : Mod} {p : Path} {x : Mod} : (n, c) ∈ Spec.list m.kids → Spec.At c p x → Spec.At m (n :: p) x

/-- Names are unique within a module. -/
def Spec.Names (net : Mod) : Prop :=
  ∀ p x, Spec.At net p x → ((Spec.list x.kids).map Prod.fst).Nodup ∧ (x.params.map Prod.fst).Nodup

/-- No module and no parameter is at two places. -/
def Spec.NoSharing (net : Mod) : Prop :=
  (∀ p x q y, Spec.At net p x → Spec.At net q y → x.id = y.id → p = q) ∧
  ∀ p x k q y l v, Spec.At net p x → (k, v) ∈ x.params → Spec.At net q y → (l, v) ∈ y.params → p = q ∧ k = l

/-- The class of the module is in the list. -/
def Spec.Is (m : Mod) (classes : List String) : Prop := ∃ c ∈ m.classes, c ∈ classes

/-- The module is on one of the lists. -/
def Spec.Listed (cfg : Cfg) (p : Path) (m : Mod) : Prop := Spec.Is m cfg.white ∨ Spec.Is m cfg.black ∨ p ∈ cfg.exclude

/-! ## Traversals -/

theorem at_trans {m : Mod} {p : Path} {a : Mod} (h : Spec.At m p a) {q : Path} {x : Mod} (h2 : Spec.At a q x) :
    Spec.At m (p ++ q) x := by
  induction h with
  | here m => exact h2
  | child hk _ ih => exact .child hk (ih h2)

mutual
/-- `visit` without a memo -/
def pre : Mod → Path → List (Path × Mod)
  | .mk i c p kids, path => (path, .mk i c p kids) :: preKids kids path
def preKids : Kids → Path → List (Path × Mod)
  | .nil, _ => []
  | .cons n m rest, path => pre m (path ++ [n]) ++ preKids rest path
end

mutual
theorem visit_eq : ∀ (m : Mod) (path : Path) (memo : List Nat), ((pre m path).map fun q => q.2.id).Nodup →
    (∀ x ∈ (pre m path).map fun q => q.2.id, x ∉ memo) →
    (visit m path memo).2 = pre m path ∧ ∀ x, x ∈ (visit m path memo).1 → x ∈ memo ∨ x ∈ (pre m path).map fun q => q.2.id
  | .mk i c p kids, path, memo, hn, hd => by
    simp only [pre, List.map_cons, Mod.id, List.nodup_cons, List.mem_cons, forall_eq_or_imp] at hn hd
    obtain ⟨h1, h2⟩ := visitKids_eq kids path (i :: memo) hn.2 (fun x hx hm => by
      rcases List.mem_cons.mp hm with rfl | hm
      · exact hn.1 hx
      · exact hd.2 x hx hm)
    simp only [visit, pre, if_neg hd.1, h1, List.map_cons, Mod.id, List.mem_cons, true_and]
    intro x hx
    have := h2 x hx
    simp only [List.mem_cons] at this
    tauto
theorem visitKids_eq : ∀ (k : Kids) (path : Path) (memo : List Nat), ((preKids k path).map fun q => q.2.id).Nodup →
    (∀ x ∈ (preKids k path).map fun q => q.2.id, x ∉ memo) →
    (visitKids k path memo).2 = preKids k path ∧
      ∀ x, x ∈ (visitKids k path memo).1 → x ∈ memo ∨ x ∈ (preKids k path).map fun q => q.2.id
  | .nil, path, memo, _, _ => by simp [visitKids, preKids]
  | .cons n m rest, path, memo, hn, hd => by
    simp only [preKids, List.map_append] at hn hd
    obtain ⟨hn1, hn2, hn3⟩ := List.nodup_append.mp hn
    obtain ⟨h1, h2⟩ := visit_eq m (path ++ [n]) memo hn1 (fun x hx => hd x (List.mem_append_left _ hx))
    obtain ⟨h3, h4⟩ := visitKids_eq rest path (visit m (path ++ [n]) memo).1 hn2 (fun x hx hm => by
      rcases h2 x hm with h | h
      · exact hd x (List.mem_append_right _ hx) h
      · exact hn3 x h x hx rfl)
    refine ⟨by simp only [visitKids, preKids, h1, h3], fun x hx => ?_⟩
    simp only [visitKids] at hx
    simp only [preKids, List.map_append, List.mem_append]
    rcases h4 x hx with h | h
    · rcases h2 x h with h | h <;> tauto
    · tauto
end

mutual
theorem mem_pre : ∀ (m : Mod) (path q : Path) (x : Mod), (q, x) ∈ pre m path ↔ ∃ p, q = path ++ p ∧ Spec.At m p x
  | .mk i c ps kids, path, q, x => by
    simp only [pre, List.mem_cons, Prod.mk.injEq, mem_preKids kids path q x]
    constructor
    · rintro (⟨rfl, rfl⟩ | ⟨n, c', p, hk, rfl, h⟩)
      · exact ⟨[], by simp, .here _⟩
      · exact ⟨n :: p, rfl, .child hk h⟩
    · rintro ⟨p, rfl, h⟩
      cases h with
      | here => left; simp
      | child hk h => exact Or.inr ⟨_, _, _, hk, rfl, h⟩
theorem mem_preKids : ∀ (k : Kids) (path q : Path) (x : Mod), (q, x) ∈ preKids k path ↔
    ∃ n c p, (n, c) ∈ Spec.list k ∧ q = path ++ n :: p ∧ Spec.At c p x
  | .nil, path, q, x => by simp [preKids, Spec.list]
  | .cons n m rest, path, q, x => by
    simp only [preKids, List.mem_append, mem_pre m (path ++ [n]) q x, mem_preKids rest path q x, Spec.list, List.mem_cons,
      Prod.mk.injEq]
    constructor
    · rintro (⟨p, rfl, h⟩ | ⟨n', c, p, hk, rfl, h⟩)
      · exact ⟨n, m, p, Or.inl ⟨rfl, rfl⟩, by simp, h⟩
      · exact ⟨n', c, p, Or.inr hk, rfl, h⟩
    · rintro ⟨n', c, p, (⟨rfl, rfl⟩ | hk), rfl, h⟩
      · exact Or.inl ⟨p, by simp, h⟩
      · exact Or.inr ⟨n', c, p, hk, rfl, h⟩
end

theorem names_sub {net : Mod} (h : Spec.Names net) {p : Path} {a : Mod} (ha : Spec.At net p a) : Spec.Names a :=
  fun q x hx => h (p ++ q) x (at_trans ha hx)

theorem noSharing_sub {net : Mod} (h : Spec.NoSharing net) {p : Path} {a : Mod} (ha : Spec.At net p a) : Spec.NoSharing a :=
  ⟨fun q x r y hx hy e => List.append_cancel_left (h.1 _ x _ y (at_trans ha hx) (at_trans ha hy) e),
   fun q x k r y l v hx hk hy hl => by
    obtain ⟨h1, h2⟩ := h.2 _ x k _ y l v (at_trans ha hx) hk (at_trans ha hy) hl
    exact ⟨List.append_cancel_left h1, h2⟩⟩

mutual
theorem pre_nodup : ∀ (m : Mod) (path : Path), Spec.Names m → ((pre m path).map Prod.fst).Nodup
  | .mk i c ps kids, path, h => by
    simp only [pre, List.map_cons, List.nodup_cons]
    refine ⟨fun hm => ?_, preKids_nodup kids path (h [] _ (.here _)).1 (fun n c hk q x hx => h (n :: q) x (.child hk hx))⟩
    obtain ⟨⟨q, x⟩, hq, rfl⟩ := List.mem_map.mp hm
    obtain ⟨n, c', p, -, h2, -⟩ := (mem_preKids kids _ _ _).mp hq
    simpa using congrArg List.length h2
theorem preKids_nodup : ∀ (k : Kids) (path : Path), ((Spec.list k).map Prod.fst).Nodup →
    (∀ n c, (n, c) ∈ Spec.list k → Spec.Names c) → ((preKids k path).map Prod.fst).Nodup
  | .nil, path, _, _ => by simp [preKids]
  | .cons n m rest, path, hn, h => by
    simp only [Spec.list, List.map_cons, List.nodup_cons] at hn
    simp only [preKids, List.map_append]
    refine List.nodup_append.mpr ⟨pre_nodup m _ (h n m (by simp [Spec.list])),
      preKids_nodup rest path hn.2 (fun n' c hk => h n' c (by simp [Spec.list, hk])), ?_⟩
    intro a ha b hb hab
    obtain ⟨⟨q, x⟩, hq, rfl⟩ := List.mem_map.mp ha
    obtain ⟨⟨r, y⟩, hr, rfl⟩ := List.mem_map.mp hb
    obtain ⟨p, h1, -⟩ := (mem_pre _ _ _ _).mp hq
    obtain ⟨n', c, p', hk, h2, -⟩ := (mem_preKids _ _ _ _).mp hr
    simp only at hab
    rw [h1, h2, List.append_assoc] at hab
    have := List.append_cancel_left hab
    simp only [List.singleton_append, List.cons.injEq] at this
    apply hn.1
    rw [this.1]
    exact List.mem_map.mpr ⟨(n', c), hk, rfl⟩
end

theorem nodup_map_of {α β γ : Type} (l : List α) (f : α → β) (g : α → γ) (h : (l.map f).Nodup)
    (hi : ∀ x ∈ l, ∀ y ∈ l, g x = g y → f x = f y) : (l.map g).Nodup := by
  induction l with
  | nil => exact List.nodup_nil
  | cons x l ih =>
    simp only [List.map_cons, List.nodup_cons] at h ⊢
    refine ⟨fun hm => ?_, ih h.2 fun a ha b hb => hi a (by simp [ha]) b (by simp [hb])⟩
    obtain ⟨y, hy, e⟩ := List.mem_map.mp hm
    exact h.1 (List.mem_map.mpr ⟨y, hy, hi y (by simp [hy]) x (by simp) e⟩)

theorem namedModules_eq (net : Mod) (hn : Spec.Names net) (hs : Spec.NoSharing net) : namedModules net = pre net [] := by
  refine (visit_eq net [] [] ?_ (fun x _ => by simp)).1
  refine nodup_map_of _ _ _ (pre_nodup net [] hn) fun x hx y hy e => ?_
  obtain ⟨p, h1, h2⟩ := (mem_pre _ _ _ _).mp hx
  obtain ⟨q, h3, h4⟩ := (mem_pre _ _ _ _).mp hy
  rw [h1, h3, hs.1 p _ q _ h2 h4 e]

theorem mem_namedModules (net : Mod) (hn : Spec.Names net) (hs : Spec.NoSharing net) (p : Path) (x : Mod) :
    (p, x) ∈ namedModules net ↔ Spec.At net p x := by
  rw [namedModules_eq net hn hs, mem_pre]
  simp

theorem at_unique {net : Mod} (hn : Spec.Names net) {p : Path} {x y : Mod} (hx : Spec.At net p x) (hy : Spec.At net p y) : x = y := by
  induction hx with
  | here m => cases hy; rfl
  | @child m n c p x hk _ ih =>
    cases hy with
    | @child _ _ c' _ _ hk' hy =>
      have h := (hn [] m (.here m)).1
      have : (n, c) = (n, c') := List.inj_on_of_nodup_map h hk hk' rfl
      cases this
      exact ih (names_sub hn (by simpa using Spec.At.child hk (.here c))) hy

theorem dedup_of_nodup (l : List (Path × Nat)) (memo : List Nat) (h : (l.map Prod.snd).Nodup) (hm : ∀ p ∈ l, p.2 ∉ memo) :
    dedup l memo = l := by
  induction l generalizing memo with
  | nil => rfl
  | cons p l ih =>
    obtain ⟨n, v⟩ := p
    simp only [List.map_cons, List.nodup_cons] at h
    have := hm (n, v) (by simp)
    simp only at this
    simp only [dedup, if_neg this]
    rw [ih _ h.2 fun q hq hqm => ?_]
    rcases List.mem_cons.mp hqm with e | e
    · exact h.1 (List.mem_map.mpr ⟨q, hq, e⟩)
    · exact hm q (by simp [hq]) e

/-- all parameters, under all names -/
def allParams (m : Mod) : List (Path × Nat) := (namedModules m).flatMap fun q => q.2.params.map fun p => (q.1 ++ [p.1], p.2)

theorem mem_allParams (net : Mod) (hn : Spec.Names net) (hs : Spec.NoSharing net) (q : Path) (v : Nat) :
    (q, v) ∈ allParams net ↔ ∃ p x k, Spec.At net p x ∧ (k, v) ∈ x.params ∧ q = p ++ [k] := by
  simp only [allParams, List.mem_flatMap, List.mem_map, Prod.exists]
  constructor
  · rintro ⟨p, x, hx, k, v', hk, e⟩
    cases e
    exact ⟨p, x, k, (mem_namedModules net hn hs p x).mp hx, hk, rfl⟩
  · rintro ⟨p, x, k, hx, hk, rfl⟩
    exact ⟨p, x, (mem_namedModules net hn hs p x).mpr hx, k, v, hk, rfl⟩

theorem allParams_nodup (net : Mod) (hn : Spec.Names net) (hs : Spec.NoSharing net) : ((allParams net).map Prod.fst).Nodup := by
  unfold allParams
  rw [List.map_flatMap]
  rw [List.nodup_flatMap]
  constructor
  · rintro ⟨p, x⟩ hx
    have := (hn p x ((mem_namedModules net hn hs p x).mp hx)).2
    rw [List.map_map]
    refine nodup_map_of _ _ _ this fun a _ b _ e => ?_
    simp only [Function.comp_apply] at e
    simpa using List.append_cancel_left e
  · have := pre_nodup net [] hn
    rw [← namedModules_eq net hn hs, List.nodup_iff_pairwise_ne, List.pairwise_map] at this
    refine this.imp fun {a b} hab => ?_
    intro q h1 h2
    simp only [List.map_map, List.mem_map, Function.comp_apply] at h1 h2
    obtain ⟨u, -, rfl⟩ := h1
    obtain ⟨w, -, e⟩ := h2
    exact hab (List.append_inj_left' e rfl).symm

theorem namedParameters_eq (net : Mod) (hn : Spec.Names net) (hs : Spec.NoSharing net) : namedParameters net = allParams net := by
  refine dedup_of_nodup _ _ ?_ (by simp)
  refine nodup_map_of _ _ _ (allParams_nodup net hn hs) fun a ha b hb e => ?_
  obtain ⟨p, x, k, h1, h2, h3⟩ := (mem_allParams net hn hs a.1 a.2).mp ha
  obtain ⟨q, y, l, h4, h5, h6⟩ := (mem_allParams net hn hs b.1 b.2).mp hb
  rw [← e] at h5
  obtain ⟨h7, h8⟩ := hs.2 p x k q y l a.2 h1 h2 h4 h5
  rw [h3, h6, h7, h8]

/-! ## The sets -/

theorem mem_add {s : List Path} {x y : Path} : y ∈ add s x ↔ y ∈ s ∨ y = x := by
  unfold add
  split
  · constructor
    · exact Or.inl
    · rintro (h | rfl) <;> assumption
  · simp

theorem nodup_add {s : List Path} {x : Path} (h : s.Nodup) : (add s x).Nodup := by
  unfold add
  split
  · exact h
  · exact List.nodup_append.mpr ⟨h, by simp, fun a ha b hb e => by simp only [List.mem_singleton] at hb; subst hb e; contradiction⟩

theorem mem_foldl_put (l : List (Path × Option Bool)) (s : List Path × List Path) (x : Path) :
    (x ∈ (l.foldl put s).1 ↔ x ∈ s.1 ∨ (x, some true) ∈ l) ∧ (x ∈ (l.foldl put s).2 ↔ x ∈ s.2 ∨ (x, some false) ∈ l) := by
  induction l generalizing s with
  | nil => simp
  | cons v l ih =>
    obtain ⟨y, b⟩ := v
    simp only [List.foldl_cons, (ih _).1, (ih _).2, List.mem_cons, Prod.mk.injEq]
    rcases b with _ | _ | _ <;> simp [put, mem_add, or_assoc]

theorem nodup_foldl_put (l : List (Path × Option Bool)) (s : List Path × List Path) (h1 : s.1.Nodup) (h2 : s.2.Nodup) :
    (l.foldl put s).1.Nodup ∧ (l.foldl put s).2.Nodup := by
  induction l generalizing s with
  | nil => exact ⟨h1, h2⟩
  | cons v l ih =>
    obtain ⟨y, b⟩ := v
    rw [List.foldl_cons]
    rcases b with _ | _ | _
    · exact ih _ h1 h2
    · exact ih _ h1 (nodup_add h2)
    · exact ih _ (nodup_add h1) h2

theorem mem_dedup {l : List (Path × Nat)} {memo : List Nat} {p : Path × Nat} (h : p ∈ dedup l memo) : p ∈ l ∧ p.2 ∉ memo := by
  induction l generalizing memo with
  | nil => cases h
  | cons q l ih =>
    obtain ⟨n, v⟩ := q
    simp only [dedup] at h
    split at h
    · exact ⟨List.mem_cons_of_mem _ (ih h).1, (ih h).2⟩
    · rcases List.mem_cons.mp h with rfl | h
      · exact ⟨by simp, by assumption⟩
      · have := ih h
        exact ⟨List.mem_cons_of_mem _ this.1, fun hm => this.2 (List.mem_cons_of_mem _ hm)⟩

theorem dedup_nodup (l : List (Path × Nat)) (memo : List Nat) : ((dedup l memo).map Prod.snd).Nodup := by
  induction l generalizing memo with
  | nil => exact List.nodup_nil
  | cons q l ih =>
    obtain ⟨n, v⟩ := q
    simp only [dedup]
    split
    · exact ih _
    · simp only [List.map_cons, List.nodup_cons]
      refine ⟨fun hm => ?_, ih _⟩
      obtain ⟨p, hp, e⟩ := List.mem_map.mp hm
      exact (mem_dedup hp).2 (by rw [e]; simp)

theorem get?_ofPairs_mem {κ α : Type} [DecidableEq κ] (l : List (κ × α)) (k : κ) (v : α) (h : Dict.get? (Dict.ofPairs l) k = some v) :
    (k, v) ∈ l := by
  have key : ∀ (l : List (κ × α)) (d : Dict κ α), Dict.get? (Dict.update d l) k = some v → Dict.get? d k = some v ∨ (k, v) ∈ l := by
    intro l
    induction l with
    | nil => intro d h; exact Or.inl h
    | cons p l ih =>
      intro d h
      rcases ih (Dict.set d p.1 p.2) h with h | h
      · rw [Dict.get?_set] at h
        split at h
        · rename_i e
          cases h; subst e
          exact Or.inr (by simp)
        · exact Or.inl h
      · exact Or.inr (List.mem_cons_of_mem _ h)
  rcases key l [] h with h | h
  · cases h
  · exact h

theorem get?_ofPairs_of_mem {κ α : Type} [DecidableEq κ] (l : List (κ × α)) (hn : (l.map Prod.fst).Nodup) (k : κ) (v : α) (h : (k, v) ∈ l) :
    Dict.get? (Dict.ofPairs l) k = some v := by
  have key : ∀ (l : List (κ × α)) (d : Dict κ α), (l.map Prod.fst).Nodup → (k, v) ∈ l ∨ (k ∉ l.map Prod.fst ∧ Dict.get? d k = some v) →
      Dict.get? (Dict.update d l) k = some v := by
    intro l
    induction l with
    | nil => rintro d - (h | h); cases h; exact h.2
    | cons p l ih =>
      rintro d hn h
      simp only [List.map_cons, List.nodup_cons] at hn
      refine ih (Dict.set d p.1 p.2) hn.2 ?_
      rcases h with h | h
      · rcases List.mem_cons.mp h with rfl | h
        · exact Or.inr ⟨hn.1, Dict.get?_set_self⟩
        · exact Or.inl h
      · simp only [List.map_cons, List.mem_cons, not_or] at h
        exact Or.inr ⟨h.1.2, by rw [Dict.get?_set_ne (Ne.symm h.1.1)]; exact h.2⟩
  exact key l [] hn (Or.inl h)

theorem lookup_ok (d : Dict Path Nat) (ns : List Path) (vs : List Nat) (h : lookup d ns = .ok vs) :
    vs.map some = ns.map (Dict.get? d) := by
  induction ns generalizing vs with
  | nil => simp only [lookup, Except.ok.injEq] at h; rw [← h]; rfl
  | cons n ns ih =>
    simp only [lookup] at h
    cases hg : Dict.get? d n with
    | none => simp [hg] at h
    | some v =>
      cases hl : lookup d ns with
      | error e => simp [hg, hl] at h
      | ok ws =>
        simp only [hg, hl, Except.ok.injEq] at h
        rw [← h]
        simp [hg, ih ws hl]

theorem lookup_of (d : Dict Path Nat) (ns : List Path) (h : ∀ n ∈ ns, ∃ v, Dict.get? d n = some v) : ∃ vs, lookup d ns = .ok vs := by
  induction ns with
  | nil => exact ⟨_, rfl⟩
  | cons n ns ih =>
    obtain ⟨v, hv⟩ := h n (by simp)
    obtain ⟨vs, hvs⟩ := ih fun n hn => h n (by simp [hn])
    exact ⟨v :: vs, by simp only [lookup, hv, hvs]⟩

theorem mem_lookup {d : Dict Path Nat} {ns : List Path} {vs : List Nat} (h : lookup d ns = .ok vs) (v : Nat) :
    v ∈ vs ↔ ∃ n ∈ ns, Dict.get? d n = some v := by
  have := lookup_ok d ns vs h
  have h2 : v ∈ vs ↔ some v ∈ vs.map some := by simp
  rw [h2, this]
  simp

/-! ## C69 -/

/-- C69: contradictory lists, with a class on both, are refused, for every network. -/
theorem C69_contradiction (cfg : Cfg) (net : Mod) (h : ∃ c ∈ cfg.white, c ∈ cfg.black) :
    groups cfg net = .error .assertionError := by
  obtain ⟨c, h1, h2⟩ := h
  have h3 : cfg.white.any (fun c => decide (c ∈ cfg.black)) = true := List.any_eq_true.2 ⟨c, h1, by simpa using h2⟩
  unfold groups separate
  rw [if_pos h3]

example : groups ⟨["Linear", "LayerNorm"], ["LayerNorm"], []⟩ (.mk 0 ["Linear"] [("weight", 1)] .nil) = .error .assertionError :=
  C69_contradiction _ _ ⟨"LayerNorm", by decide, by decide⟩

/-- C69: if the optimiser can be made, then it has no parameter twice, for every network, also with shared modules and tied
weights, and all are parameters of the network. -/
theorem C69_once (cfg : Cfg) (net : Mod) (g1 g2 : List Nat) (h : groups cfg net = .ok (g1, g2)) :
    (g1 ++ g2).Nodup ∧ ∀ v ∈ g1 ++ g2, v ∈ (namedParameters net).map Prod.snd := by
  unfold groups at h
  repeat' split at h
  all_goals simp only [reduceCtorEq, Except.ok.injEq, Prod.mk.injEq] at h
  obtain ⟨rfl, rfl⟩ := h
  rename_i decay noDecay hs _ _ h1 _ _ h2 h3
  have hset : decay.Nodup ∧ noDecay.Nodup := by
    unfold separate at hs
    split at hs
    · cases hs
    · simp only [Except.ok.injEq] at hs
      have := nodup_foldl_put (votes cfg net) ([], []) List.nodup_nil List.nodup_nil
      rw [hs] at this
      exact this
  have hinj : ∀ n n' v, Dict.get? (Dict.ofPairs (namedParameters net)) n = some v →
      Dict.get? (Dict.ofPairs (namedParameters net)) n' = some v → n = n' := by
    intro n n' v ha hb
    have := List.inj_on_of_nodup_map (dedup_nodup _ _) (get?_ofPairs_mem (namedParameters net) n v ha)
      (get?_ofPairs_mem (namedParameters net) n' v hb) rfl
    exact congrArg Prod.fst this
  have hnd : ∀ (ns : List Path) (vs : List Nat), ns.Nodup → lookup (Dict.ofPairs (namedParameters net)) ns = .ok vs → vs.Nodup := by
    intro ns vs hn hl
    have hm := lookup_ok _ _ _ hl
    have hsome : ∀ n ∈ ns, ∃ v, Dict.get? (Dict.ofPairs (namedParameters net)) n = some v := by
      intro n hn'
      have : Dict.get? (Dict.ofPairs (namedParameters net)) n ∈ vs.map some := by rw [hm]; exact List.mem_map_of_mem hn'
      obtain ⟨v, -, e⟩ := List.mem_map.mp this
      exact ⟨v, e.symm⟩
    have : (vs.map some).Nodup := by
      rw [hm]
      refine nodup_map_of ns id _ (by simpa using hn) fun x hx y hy e => ?_
      obtain ⟨v, hv⟩ := hsome x hx
      exact hinj x y v hv (by rw [← e, hv])
    exact List.Nodup.of_map _ this
  refine ⟨List.nodup_append.mpr ⟨hnd _ _ hset.1 h1, hnd _ _ hset.2 h2, fun a ha b hb e => ?_⟩, fun v hv => ?_⟩
  · apply h3
    rw [List.any_eq_true]
    exact ⟨b, hb, by simpa [← e] using ha⟩
  · rcases List.mem_append.mp hv with hv | hv
    · obtain ⟨n, -, e⟩ := (mem_lookup h1 v).mp hv
      exact List.mem_map.mpr ⟨_, get?_ofPairs_mem _ _ _ e, rfl⟩
    · obtain ⟨n, -, e⟩ := (mem_lookup h2 v).mp hv
      exact List.mem_map.mpr ⟨_, get?_ofPairs_mem _ _ _ e, rfl⟩

theorem mem_votes (cfg : Cfg) (net : Mod) (hn : Spec.Names net) (hs : Spec.NoSharing net) (q : Path) (b : Option Bool) :
    (q, b) ∈ votes cfg net ↔ ∃ mn m p x k v, Spec.At net mn m ∧ Spec.At m p x ∧ (k, v) ∈ x.params ∧ q = mn ++ (p ++ [k]) ∧
      b = vote cfg mn m (p ++ [k]) := by
  simp only [votes, List.mem_flatMap, List.mem_map, Prod.exists, Prod.mk.injEq]
  constructor
  · rintro ⟨mn, m, hm, pn, v, hp, rfl, rfl⟩
    have hat := (mem_namedModules net hn hs mn m).mp hm
    rw [namedParameters_eq m (names_sub hn hat) (noSharing_sub hs hat), mem_allParams m (names_sub hn hat) (noSharing_sub hs hat)] at hp
    obtain ⟨p, x, k, h1, h2, rfl⟩ := hp
    exact ⟨mn, m, p, x, k, v, hat, h1, h2, rfl, rfl⟩
  · rintro ⟨mn, m, p, x, k, v, hat, h1, h2, rfl, rfl⟩
    refine ⟨mn, m, (mem_namedModules net hn hs mn m).mpr hat, p ++ [k], v, ?_, rfl, rfl⟩
    rw [namedParameters_eq m (names_sub hn hat) (noSharing_sub hs hat), mem_allParams m (names_sub hn hat) (noSharing_sub hs hat)]
    exact ⟨p, x, k, h1, h2, rfl⟩

theorem isInstance_iff (m : Mod) (cl : List String) : isInstance m cl = true ↔ Spec.Is m cl := by
  simp [isInstance, Spec.Is]

theorem ends_concat (p : Path) (k s : String) : ends (p ++ [k]) s = s.toList.isSuffixOf k.toList := by
  simp [ends]

/-- the name of a parameter ends like this -/
def Spec.Like (k s : String) : Prop := s.toList <:+ k.toList

theorem ends_iff (p : Path) (k s : String) : ends (p ++ [k]) s = true ↔ Spec.Like k s := by
  rw [ends_concat, List.isSuffixOf_iff_suffix]; rfl

theorem not_both (k : String) : ¬ (Spec.Like k "bias" ∧ Spec.Like k "weight") := by
  rintro ⟨⟨a, ha⟩, ⟨b, hb⟩⟩
  rw [← hb] at ha
  have := congrArg List.getLast? ha
  revert this
  rw [List.getLast?_append_of_ne_nil _ (by decide +kernel), List.getLast?_append_of_ne_nil _ (by decide +kernel)]
  decide +kernel

open Classical in
/-- C69 for networks without shared modules and tied weights, where parameters are called "…weight" and "…bias", the modules
on the lists have no submodules, and every weight belongs to a module on the lists: the optimiser can be made, and every
parameter is in exactly one group; it decays if it is a weight of a module of the white list, not on the other lists. -/
theorem C69_partial (cfg : Cfg) (net : Mod) (hd : ∀ c ∈ cfg.white, c ∉ cfg.black) (hn : Spec.Names net) (hs : Spec.NoSharing net)
    (hleaf : ∀ p x, Spec.At net p x → Spec.Listed cfg p x → Spec.list x.kids = [])
    (hnames : ∀ p x k v, Spec.At net p x → (k, v) ∈ x.params →
      Spec.Like k "bias" ∨ (Spec.Like k "weight" ∧ Spec.Listed cfg p x)) :
    ∃ g1 g2, groups cfg net = .ok (g1, g2) ∧ (g1 ++ g2).Nodup ∧
      ∀ p x k v, Spec.At net p x → (k, v) ∈ x.params →
        (v ∈ g1 ↔ Spec.Like k "weight" ∧ Spec.Is x cfg.white ∧ ¬ Spec.Is x cfg.black ∧ p ∉ cfg.exclude) ∧
        (v ∈ g2 ↔ v ∉ g1) := by
  -- the votes for a parameter
  have hvote : ∀ p x k v b, Spec.At net p x → (k, v) ∈ x.params → (p ++ [k], some b) ∈ votes cfg net →
      (b = true ↔ Spec.Like k "weight" ∧ Spec.Is x cfg.white ∧ ¬ Spec.Is x cfg.black ∧ p ∉ cfg.exclude) := by
    intro p x k v b hx hk hm
    obtain ⟨mn, m, p', x', k', v', h1, h2, h3, h4, h5⟩ := (mem_votes cfg net hn hs _ _).mp hm
    rw [← List.append_assoc] at h4
    obtain ⟨h6, h7⟩ := List.append_inj' h4 rfl
    cases h7
    have hxx : x = x' := at_unique hn hx (h6 ▸ at_trans h1 h2)
    subst hxx
    have hb := not_both k
    have hown : Spec.Listed cfg mn m → mn = p ∧ m = x := by
      intro hl
      have := hleaf mn m h1 hl
      cases h2 with
      | here => exact ⟨by simp [h6], rfl⟩
      | child hk _ => rw [this] at hk; cases hk
    unfold vote at h5
    simp only [ends_iff, isInstance_iff, Bool.and_eq_true] at h5
    split at h5
    · rename_i hex
      cases h5
      obtain ⟨rfl, rfl⟩ := hown (Or.inr (Or.inr hex))
      simp [hex]
    · rename_i hex
      split at h5
      · cases h5
        simp only [Bool.false_eq_true, false_iff]
        tauto
      · split at h5
        · rename_i hbl
          cases h5
          obtain ⟨rfl, rfl⟩ := hown (Or.inr (Or.inl hbl.2))
          simp [hbl.2]
        · rename_i hbl
          split at h5
          · rename_i hwh
            cases h5
            obtain ⟨rfl, rfl⟩ := hown (Or.inl hwh.2)
            simp only [true_iff]
            tauto
          · cases h5
  have hex : ∀ p x k v, Spec.At net p x → (k, v) ∈ x.params → ∃ b, (p ++ [k], some b) ∈ votes cfg net := by
    intro p x k v hx hk
    have : ∃ b, vote cfg p x ([] ++ [k]) = some b := by
      unfold vote
      simp only [ends_iff, isInstance_iff, Bool.and_eq_true]
      have hb := not_both k
      have := hnames p x k v hx hk
      unfold Spec.Listed at this
      split
      · exact ⟨_, rfl⟩
      split
      · exact ⟨_, rfl⟩
      split
      · exact ⟨_, rfl⟩
      split
      · exact ⟨_, rfl⟩
      tauto
    obtain ⟨b, hb⟩ := this
    exact ⟨b, (mem_votes cfg net hn hs _ _).mpr ⟨p, x, [], x, k, v, hx, .here x, hk, rfl, hb.symm⟩⟩
  -- names and parameters
  have hpd : ∀ q v, Dict.get? (Dict.ofPairs (namedParameters net)) q = some v ↔
      ∃ p x k, Spec.At net p x ∧ (k, v) ∈ x.params ∧ q = p ++ [k] := by
    intro q v
    rw [← mem_allParams net hn hs, namedParameters_eq net hn hs]
    exact ⟨get?_ofPairs_mem _ _ _, get?_ofPairs_of_mem _ (allParams_nodup net hn hs) _ _⟩
  have hsep : separate cfg net = .ok ((votes cfg net).foldl put ([], [])) := by
    unfold separate
    rw [if_neg]
    simpa using hd
  have hmem : ∀ x, (x ∈ ((votes cfg net).foldl put ([], [])).1 ↔ (x, some true) ∈ votes cfg net) ∧
      (x ∈ ((votes cfg net).foldl put ([], [])).2 ↔ (x, some false) ∈ votes cfg net) := by
    intro x
    have := mem_foldl_put (votes cfg net) ([], []) x
    simpa using this
  have hval : ∀ q b, (q, some b) ∈ votes cfg net → ∃ v, Dict.get? (Dict.ofPairs (namedParameters net)) q = some v := by
    intro q b hq
    obtain ⟨mn, m, p', x', k', v', h1, h2, h3, h4, h5⟩ := (mem_votes cfg net hn hs _ _).mp hq
    exact ⟨v', (hpd q v').mpr ⟨mn ++ p', x', k', at_trans h1 h2, h3, by simp [h4]⟩⟩
  obtain ⟨g1, hg1⟩ := lookup_of (Dict.ofPairs (namedParameters net)) _ fun n hn' => hval n true ((hmem n).1.mp hn')
  obtain ⟨g2, hg2⟩ := lookup_of (Dict.ofPairs (namedParameters net)) _ fun n hn' => hval n false ((hmem n).2.mp hn')
  -- a parameter is in a group if it has such a vote
  have hin : ∀ p x k v, Spec.At net p x → (k, v) ∈ x.params →
      (v ∈ g1 ↔ (p ++ [k], some true) ∈ votes cfg net) ∧ (v ∈ g2 ↔ (p ++ [k], some false) ∈ votes cfg net) := by
    intro p x k v hx hk
    have huniq : ∀ n, Dict.get? (Dict.ofPairs (namedParameters net)) n = some v → n = p ++ [k] := by
      intro n hnv
      obtain ⟨q, y, l, h1, h2, h3⟩ := (hpd n v).mp hnv
      obtain ⟨h4, h5⟩ := hs.2 p x k q y l v hx hk h1 h2
      rw [h3, h4, h5]
    have hself := (hpd (p ++ [k]) v).mpr ⟨p, x, k, hx, hk, rfl⟩
    rw [mem_lookup hg1, mem_lookup hg2]
    constructor
    · constructor
      · rintro ⟨n, h1, h2⟩
        rw [huniq n h2] at h1
        exact (hmem _).1.mp h1
      · intro h; exact ⟨_, (hmem _).1.mpr h, hself⟩
    · constructor
      · rintro ⟨n, h1, h2⟩
        rw [huniq n h2] at h1
        exact (hmem _).2.mp h1
      · intro h; exact ⟨_, (hmem _).2.mpr h, hself⟩
  have hone : ∀ p x k v, Spec.At net p x → (k, v) ∈ x.params →
      (v ∈ g1 ↔ Spec.Like k "weight" ∧ Spec.Is x cfg.white ∧ ¬ Spec.Is x cfg.black ∧ p ∉ cfg.exclude) ∧ (v ∈ g2 ↔ v ∉ g1) := by
    intro p x k v hx hk
    obtain ⟨i1, i2⟩ := hin p x k v hx hk
    obtain ⟨b, hb⟩ := hex p x k v hx hk
    have e1 := fun h => hvote p x k v true hx hk h
    have e2 := fun h => hvote p x k v false hx hk h
    simp only [true_iff, Bool.false_eq_true, false_iff] at e1 e2
    rw [i1, i2]
    cases b with
    | true => exact ⟨⟨e1, fun _ => hb⟩, ⟨fun h => absurd (e1 hb) (e2 h), fun h => absurd hb h⟩⟩
    | false => exact ⟨⟨e1, fun h => absurd h (e2 hb)⟩, ⟨fun h h' => e2 h (e1 h'), fun _ => hb⟩⟩
  have hok : groups cfg net = .ok (g1, g2) := by
    simp only [groups, hsep, hg1, hg2]
    rw [if_neg]
    rw [List.any_eq_true]
    rintro ⟨v, h1, h2⟩
    obtain ⟨n, -, h3⟩ := (mem_lookup hg2 v).mp h1
    obtain ⟨p, x, k, h4, h5, -⟩ := (hpd n v).mp h3
    exact (hone p x k v h4 h5).2.mp h1 (by simpa using h2)
  exact ⟨g1, g2, hok, (C69_once cfg net g1 g2 hok).1, hone⟩

/-- C69, the claim: every parameter is in exactly one group. -/
def C69_claim : Prop :=
  ∀ (cfg : Cfg) (net : Mod), (∀ c ∈ cfg.white, c ∉ cfg.black) → Spec.Names net →
    ∃ g1 g2, groups cfg net = .ok (g1, g2) ∧ (g1 ++ g2).Nodup ∧
      ∀ p x k v, Spec.At net p x → (k, v) ∈ x.params → v ∈ g1 ++ g2

/-- the default lists -/
def dflt : Cfg := ⟨["Linear"], ["LayerNorm"], []⟩

/-- an embedding and a linear layer -/
def embedding : Mod :=
  .mk 0 ["Net", "Module"] [] (.cons "emb" (.mk 1 ["Embedding", "Module"] [("weight", 10)] .nil)
    (.cons "out" (.mk 2 ["Linear", "Module"] [("weight", 11), ("bias", 12)] .nil) .nil))

theorem embedding_groups : groups dflt embedding = .ok ([11], [12]) := by decide +kernel

theorem embedding_names : Spec.Names embedding := by
  intro p x h
  cases h with
  | here => decide +kernel
  | child hk h =>
    simp only [embedding, Mod.kids, Spec.list, List.mem_cons, Prod.mk.injEq, List.not_mem_nil, or_false] at hk
    rcases hk with ⟨rfl, rfl⟩ | ⟨rfl, rfl⟩
    all_goals
      cases h with
      | here => decide +kernel
      | child hk h => simp [Mod.kids, Spec.list] at hk

/-- C69 is false for the code: the weights of an embedding are in no group, so they are never trained, without any error. -/
theorem C69_false : ¬ C69_claim := by
  intro h
  obtain ⟨g1, g2, h1, -, h2⟩ := h dflt embedding (by decide +kernel) embedding_names
  rw [embedding_groups] at h1
  cases h1
  have hat : Spec.At embedding ["emb"] (.mk 1 ["Embedding", "Module"] [("weight", 10)] .nil) :=
    .child (c := .mk 1 ["Embedding", "Module"] [("weight", 10)] .nil) (by simp [embedding, Mod.kids, Spec.list]) (.here _)
  have := h2 _ _ "weight" 10 hat (by simp [Mod.params])
  simp at this

/-- two linear layers in a container and a normalisation; the head is excluded -/
def mlp : Mod :=
  .mk 0 ["Net", "Module"] [] (.cons "body" (.mk 1 ["Sequential", "Module"] [] (.cons "0" (.mk 2 ["Linear", "Module"] [("weight", 10), ("bias", 11)] .nil)
      (.cons "1" (.mk 3 ["LayerNorm", "Module"] [("weight", 12), ("bias", 13)] .nil) .nil)))
    (.cons "head" (.mk 4 ["Linear", "Module"] [("weight", 14), ("bias", 15)] .nil) .nil))

example : groups { dflt with exclude := [["head"]] } mlp = .ok ([10], [11, 13, 15, 12, 14]) := by decide +kernel

/-- Excluding a container puts its weights in both groups, which is an error. -/
example : groups { dflt with exclude := [["body"]] } mlp = .error .valueError := by decide +kernel

/-- Tied weights: the second name is in a set, but not among the named parameters. -/
example : groups dflt (.mk 0 ["Net"] [] (.cons "a" (.mk 1 ["Linear"] [("weight", 10)] .nil) (.cons "b" (.mk 2 ["Linear"] [("weight", 10)] .nil) .nil))) =
    .error .keyError := by decide +kernel

end Optim

end Verif
