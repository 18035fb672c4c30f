import Verif.Spec.Callback
import Verif.Lemmas.Proxy

/-!
# Properties of the argument routing (C42-C44)
-/

namespace Verif

open Spec

variable {W : Type u} {V : Type v}

theorem pick_get? (kw : Dict String (PyVal V)) (names : List String) (p : String) :
    Dict.get? (pick kw names) p = if p ∈ names then kw.get? p else none := by
  induction names with
  | nil => simp [pick, Dict.get?]
  | cons v vs ih =>
    unfold pick
    cases h : kw.get? v with
    | none =>
      simp only [ih, List.mem_cons]
      by_cases hp : p = v
      · subst hp; simp [h]
      · simp [hp]
    | some x =>
      simp only [Dict.get?, ih, List.mem_cons]
      by_cases hp : p = v
      · subst hp; simp [h]
      · rw [if_neg (Ne.symm hp)]; simp [hp]

theorem pick_keys_sublist (kw : Dict String (PyVal V)) (names : List String) :
    (Dict.keys (pick kw names)).Sublist names := by
  induction names with
  | nil => simp [pick]
  | cons v vs ih =>
    unfold pick
    cases h : kw.get? v with
    | none => exact ih.cons v
    | some x => simpa using ih.cons_cons v

theorem addRenamed_get? (kw : Dict String (PyVal V)) (ren : Dict String String) (acc : Dict String (PyVal V))
    (hn : ren.keys.Nodup) (p : String) :
    Dict.get? (addRenamed kw ren acc) p = ((ren.get? p).bind kw.get?).or (Dict.get? acc p) := by
  induction ren generalizing acc with
  | nil => simp [addRenamed, Dict.get?]
  | cons ak rest ih =>
    obtain ⟨arg, key⟩ := ak
    have hn' := List.nodup_cons.1 hn
    unfold addRenamed
    cases h : kw.get? key with
    | none =>
      simp only [ih acc hn'.2, Dict.get?]
      by_cases hp : arg = p
      · subst hp
        rw [if_pos rfl, Dict.get?_none_iff.2 hn'.1]
        simp [h]
      · rw [if_neg hp]
    | some x =>
      simp only [ih _ hn'.2, Dict.get?]
      by_cases hp : arg = p
      · subst hp
        rw [if_pos rfl, Dict.get?_none_iff.2 hn'.1]
        simp [h]
      · rw [if_neg hp, Dict.get?_set_ne hp]

theorem addRenamed_nodup (kw : Dict String (PyVal V)) (ren : Dict String String) (acc : Dict String (PyVal V))
    (h : acc.keys.Nodup) : (Dict.keys (addRenamed kw ren acc)).Nodup := by
  induction ren generalizing acc with
  | nil => exact h
  | cons ak rest ih =>
    unfold addRenamed
    split
    · exact ih acc h
    · exact ih _ (Dict.nodup_set h)

theorem getComplex_ok (attrs : Dict String String) (members : List (String × String)) (names : List String)
    (acc : Dict String String) (hm : (Dict.keys members).Nodup) (hn : names.Nodup)
    (hd : ∀ p ∈ members, p.1 ∈ names ∧ (attrs.get? p.2).isSome) (hacc : ∀ p ∈ members, p.1 ∉ acc.keys)
    (hak : acc.keys.Nodup) :
    ∃ names' ren, getComplex attrs members names acc = .ok (names', ren) ∧ names'.Sublist names ∧
      (∀ v, v ∈ names' ↔ v ∈ names ∧ v ∉ Dict.keys members) ∧ ren.keys.Nodup ∧
      ∀ arg, ren.get? arg = ((Dict.get? members arg).bind attrs.get?).or (acc.get? arg) := by
  induction members generalizing names acc with
  | nil => exact ⟨names, acc, rfl, List.Sublist.refl _, by simp, hak, by simp [Dict.get?]⟩
  | cons am rest ih =>
    obtain ⟨arg, member⟩ := am
    have hm' := List.nodup_cons.1 hm
    obtain ⟨h1, h2⟩ := hd (arg, member) (by simp)
    obtain ⟨key, hkey⟩ := Option.isSome_iff_exists.1 h2
    have hne : ∀ p ∈ rest, p.1 ≠ arg := fun p hp e => hm'.1 (e ▸ Dict.mem_keys_of_mem (k := p.1) (v := p.2) hp)
    obtain ⟨names', ren, e1, e2, e3, e4, e5⟩ := ih (names.erase arg) (acc.set arg key) hm'.2 (hn.erase arg)
      (fun p hp => ⟨(List.mem_erase_of_ne (hne p hp)).2 (hd p (by simp [hp])).1, (hd p (by simp [hp])).2⟩)
      (fun p hp hc => by
        rcases Dict.mem_keys_set.1 hc with h | h
        · exact hne p hp h
        · exact hacc p (by simp [hp]) h)
      (Dict.nodup_set hak)
    refine ⟨names', ren, ?_, e2.trans List.erase_sublist, ?_, e4, ?_⟩
    · simp only [getComplex, hkey]
      rw [if_pos h1]; exact e1
    · intro v
      rw [e3 v, hn.mem_erase_iff]
      simp only [Dict.keys_cons, List.mem_cons]
      tauto
    · intro a
      rw [e5 a]
      by_cases ha : arg = a
      · subst ha
        simp only [Dict.get?, if_pos, Option.bind_some, hkey, Option.some_or]
        rw [Dict.get?_none_iff.2 hm'.1]
        simp
      · simp only [Dict.get?, if_neg ha, Dict.get?_set_ne ha]

theorem get?_append (d e : Dict String (PyVal V)) (p : String) :
    Dict.get? (d ++ e) p = (Dict.get? d p).or (Dict.get? e p) := by
  induction d with
  | nil => simp [Dict.get?]
  | cons kv d ih =>
    simp only [List.cons_append, Dict.get?]
    split
    · simp
    · exact ih

/-- Python's argument binding, when the keywords are declared and not taken. -/
theorem bind_eq (sig : Sig) (pos : List (PyVal V)) (kw : Dict String (PyVal V)) (hv : sig.varargs = false)
    (hk : sig.varkw = false) (hs : "self" ∉ sig.args ++ sig.kwonly) (hp : pos.length ≤ sig.args.length)
    (hkw : ∀ k ∈ Dict.keys kw, k ∈ sig.args ++ sig.kwonly ∧ k ∉ Dict.keys (sig.args.zip pos)) :
    ((∀ p ∈ sig.required, ((Dict.get? (sig.args.zip pos) p).or (Dict.get? kw p)).isSome) →
      sig.bind pos kw = .ok ⟨sig.args.zip pos ++ kw, [], []⟩) ∧
    ((∃ p ∈ sig.required, (Dict.get? (sig.args.zip pos) p).or (Dict.get? kw p) = none) →
      sig.bind pos kw = .error .typeError) := by
  have hmem : ∀ kv ∈ kw, kv.1 ∈ sig.args ++ sig.kwonly ∧ kv.1 ∉ Dict.keys (sig.args.zip pos) := fun kv h =>
    hkw _ (Dict.mem_keys_of_mem (k := kv.1) (v := kv.2) h)
  have h1 : kw.filter (fun kv => decide (kv.1 ∈ sig.args ++ sig.kwonly)) = kw :=
    List.filter_eq_self.2 fun kv h => by simpa using (hmem kv h).1
  have h2 : kw.filter (fun kv => !decide (kv.1 ∈ sig.args ++ sig.kwonly)) = [] :=
    List.filter_eq_nil_iff.2 fun kv h => by
      have := (hmem kv h).1
      simp only [Bool.not_eq_true', decide_eq_false_iff_not, not_not]
      exact this
  have h3 : kw.any (fun kv => kv.1 = "self" || decide (kv.1 ∈ Dict.keys (sig.args.zip pos))) = false := by
    rw [List.any_eq_false]
    intro kv h
    have := hmem kv h
    simp only [Bool.or_eq_true, decide_eq_true_eq, not_or]
    exact ⟨fun e => hs (e ▸ this.1), this.2⟩
  have h4 : kw.any (fun kv => !decide (kv.1 ∈ sig.args ++ sig.kwonly)) = false := by
    rw [List.any_eq_false]
    intro kv h
    have := (hmem kv h).1
    simp only [Bool.not_eq_true', decide_eq_false_iff_not, not_not]
    exact this
  have h5 : pos.drop sig.args.length = [] := List.drop_eq_nil_of_le hp
  unfold Sig.bind
  simp only [h1, h2, h3, h4, h5, hv, hk]
  constructor
  · intro h
    rw [if_neg]
    simp only [ne_eq, not_true_eq_false, false_and, Bool.false_eq_true, and_false, false_or]
    rw [Bool.not_eq_true, List.any_eq_false]
    intro p hp'
    have := h p hp'
    simp only [Dict.contains, get?_append, Bool.not_eq_true', this]
    simp
  · rintro ⟨p, hp', h⟩
    rw [if_pos]
    refine Or.inr (Or.inr (Or.inr (List.any_eq_true.2 ⟨p, hp', ?_⟩)))
    simp only [Dict.contains, get?_append, h]
    rfl

theorem keyOf_declared {attrs : Dict String String} {sig : Sig} (hw : WellDeclared attrs sig) {p : String}
    (h : p ∈ Dict.keys sig.members) : ∃ key, keyOf attrs sig p = some key := by
  obtain ⟨member, hm⟩ := Dict.get?_isSome_of_mem h
  have := (hw.declared (p, member) (Dict.mem_of_get? hm)).2
  obtain ⟨key, hkey⟩ := Option.isSome_iff_exists.1 this
  exact ⟨key, by simp [keyOf, hm, hkey]⟩

theorem keyOf_none {attrs : Dict String String} {sig : Sig} {p : String} (h : p ∉ Dict.keys sig.members) :
    keyOf attrs sig p = none := by
  simp [keyOf, Dict.get?_none_iff.2 h]

/-- What wrapping a well declared method comes to. -/
theorem wrap_names {attrs : Dict String String} {m : Method W V} (hw : WellDeclared attrs m.sig) :
    ∃ names ren, getComplex attrs m.sig.members ("self" :: (m.sig.args ++ m.sig.kwonly)) [] = .ok ("self" :: names, ren) ∧
      (∀ v, v ∈ names ↔ v ∈ m.sig.args ++ m.sig.kwonly ∧ v ∉ Dict.keys m.sig.members) ∧ names.Nodup ∧
      ren.keys.Nodup ∧ ∀ p, ren.get? p = keyOf attrs m.sig p := by
  obtain ⟨names', ren, h1, h2, h3, h4, h5⟩ := getComplex_ok attrs m.sig.members ("self" :: (m.sig.args ++ m.sig.kwonly)) []
    hw.members (List.nodup_cons.2 ⟨hw.noSelf, hw.nodup⟩)
    (fun p hp => ⟨List.mem_cons_of_mem _ (hw.declared p hp).1, (hw.declared p hp).2⟩) (by simp) (by simp)
  have hself : "self" ∉ Dict.keys m.sig.members := fun h => by
    obtain ⟨member, hm⟩ := Dict.get?_isSome_of_mem h
    exact hw.noSelf (hw.declared _ (Dict.mem_of_get? hm)).1
  have hnd : names'.Nodup := (List.nodup_cons.2 ⟨hw.noSelf, hw.nodup⟩).sublist h2
  obtain ⟨names, rfl⟩ : ∃ names, names' = "self" :: names := by
    have hin : "self" ∈ names' := (h3 "self").2 ⟨by simp, hself⟩
    cases h2 with
    | cons _ h => exact absurd (h.subset hin) hw.noSelf
    | cons_cons _ h => exact ⟨_, rfl⟩
  have hnd' := List.nodup_cons.1 hnd
  refine ⟨names, ren, h1, ?_, hnd'.2, h4, fun p => by rw [h5 p]; simp [keyOf, Dict.get?]⟩
  intro v
  have := h3 v
  simp only [List.mem_cons] at this
  by_cases hv : v = "self"
  · subst hv
    exact ⟨fun h => absurd h hnd'.1, fun h => absurd h.1 hw.noSelf⟩
  · simpa [hv] using this

/-- What the plain wrapper hands on: `names` without `self`, or with `self` if the state has no such key. -/
theorem plain_args {attrs : Dict String String} {sig : Sig} (hw : WellDeclared attrs sig) (names : List String)
    (ren : Dict String String) (hn : ∀ v, v ∈ names ↔ v ∈ sig.args ++ sig.kwonly ∧ v ∉ Dict.keys sig.members)
    (hr : ren.keys.Nodup) (hk : ∀ p, ren.get? p = keyOf attrs sig p) (kw : Dict String (PyVal V)) :
    (∀ p, Dict.get? (addRenamed kw ren (pick kw names)) p = wanted attrs sig kw.get? kw.get? p) ∧
      ∀ k ∈ Dict.keys (addRenamed kw ren (pick kw names)), k ∈ sig.args ++ sig.kwonly := by
  have h1 : ∀ p, Dict.get? (addRenamed kw ren (pick kw names)) p = wanted attrs sig kw.get? kw.get? p := by
    intro p
    rw [addRenamed_get? _ _ _ hr, hk, pick_get?]
    unfold wanted
    by_cases hp : p ∈ Dict.keys sig.members
    · obtain ⟨key, hkey⟩ := keyOf_declared hw hp
      rw [hkey, if_neg (fun h => ((hn p).1 h).2 hp)]
      simp
    · rw [keyOf_none hp]
      by_cases hd : p ∈ sig.args ++ sig.kwonly
      · rw [if_pos ((hn p).2 ⟨hd, hp⟩)]; simp [hd]
      · rw [if_neg (fun h => hd ((hn p).1 h).1)]; simp [hd]
  refine ⟨h1, fun k hk' => ?_⟩
  obtain ⟨x, hx⟩ := Dict.get?_isSome_of_mem hk'
  rw [h1 k] at hx
  unfold wanted at hx
  by_cases hp : k ∈ Dict.keys sig.members
  · obtain ⟨member, hm⟩ := Dict.get?_isSome_of_mem hp
    exact (hw.declared _ (Dict.mem_of_get? hm)).1
  · rw [keyOf_none hp] at hx
    by_contra hd
    simp [hd] at hx

theorem pick_cons_none (kw : Dict String (PyVal V)) (v : String) (names : List String) (h : kw.get? v = none) :
    pick kw (v :: names) = pick kw names := by simp [pick, h]

/-- A method that declares nothing is called without arguments. -/
theorem hookOf_empty {attrs : Dict String String} {group : Option String} {m : Method W V} {h : Hook}
    (hw : WellDeclared attrs m.sig) (he : m.sig.args ++ m.sig.kwonly = []) (kw : Dict String (PyVal V)) (w : GWorld W V) :
    hookOf attrs group (some m) h kw w = m.body ⟨[], [], []⟩ w := by
  obtain ⟨ha, hk⟩ := List.append_eq_nil_iff.1 he
  have hreq : m.sig.required = [] := List.eq_nil_iff_forall_not_mem.2 fun p hp => by
    have := hw.required p hp
    rw [he] at this; simp at this
  unfold hookOf wrapMethod
  simp only [hw.varargs, hw.varkw, Bool.or_self, Bool.false_eq_true, if_false, if_pos he]
  unfold Method.call Sig.bind
  simp [ha, hk, hreq]

theorem wanted_empty {attrs : Dict String String} {sig : Sig} (hw : WellDeclared attrs sig)
    (he : sig.args ++ sig.kwonly = []) (f g : String → Option (PyVal V)) (p : String) : wanted attrs sig f g p = none := by
  have : p ∉ Dict.keys sig.members := fun h => by
    obtain ⟨member, hm⟩ := Dict.get?_isSome_of_mem h
    have := (hw.declared _ (Dict.mem_of_get? hm)).1
    rw [he] at this; simp at this
  simp [wanted, keyOf_none this, he]

/-! ## C42 -/

/-- **C42**. A hook (other than `end_training`) of a callback without data group is called with exactly those of its
declared arguments that the state has, with the state's value (of the key to which the argument is bound, if it is
bound), or it is a `TypeError` if an argument without default is missing. The state has no key `self`. -/
theorem C42_plain (attrs : Dict String String) (m : Method W V) (hw : WellDeclared attrs m.sig) (h : Hook)
    (hpos : ∀ ex, h ≠ .endTraining ex) (kw : Dict String (PyVal V)) (hself : "self" ∉ kw.keys) (w : GWorld W V) :
    Receives m (wanted attrs m.sig kw.get? kw.get?) w Eq (hookOf attrs none (some m) h kw w) := by
  by_cases he : m.sig.args ++ m.sig.kwonly = []
  · rw [hookOf_empty hw he]
    refine ⟨fun _ => ⟨⟨[], [], []⟩, fun p => by rw [wanted_empty hw he]; rfl, rfl, rfl, rfl⟩, ?_⟩
    rintro ⟨p, hp, _⟩
    have := hw.required p hp
    rw [he] at this; simp at this
  · obtain ⟨names, ren, h1, h2, h3, h4, h5⟩ := wrap_names hw
    have hp0 : (h.positional : List (PyVal V)) = [] := by
      cases h <;> first | rfl | exact absurd rfl (hpos _)
    have heq : hookOf attrs none (some m) h kw w = m.call [] (addRenamed kw ren (pick kw names)) w := by
      unfold hookOf wrapMethod
      simp only [hw.varargs, hw.varkw, Bool.or_self, Bool.false_eq_true, if_false, if_neg he, h1, hp0]
      unfold callPlain
      rw [List.length_nil, List.drop_zero, pick_cons_none _ _ _ (Dict.get?_none_iff.2 hself)]
    obtain ⟨ha, hb⟩ := plain_args hw names ren h2 h4 h5 kw
    have hbind := bind_eq m.sig [] (addRenamed kw ren (pick kw names)) hw.varargs hw.varkw hw.noSelf (by simp)
      (fun k hk => ⟨hb k hk, by simp⟩)
    simp only [List.zip_nil_right, Dict.get?, Option.none_or, ha, List.nil_append] at hbind
    rw [heq]
    unfold Receives Method.call
    constructor
    · intro hreq
      rw [hbind.1 hreq]
      exact ⟨_, ha, rfl, rfl, rfl⟩
    · intro hreq
      rw [hbind.2 hreq]

/-- **C42** (`end_training`). The first argument gets the exception, the others are as before; the state must not
have a key with the name of the first argument. -/
theorem C42_end_training (attrs : Dict String String) (m : Method W V) (hw : WellDeclared attrs m.sig) (first : String)
    (more : List String) (hargs : m.sig.args = first :: more) (hfirst : first ∉ Dict.keys m.sig.members) (ex : Exc)
    (kw : Dict String (PyVal V)) (hkw : first ∉ kw.keys) (w : GWorld W V) :
    Receives m (fun p => if p = first then some (.exc ex) else wanted attrs m.sig kw.get? kw.get? p) w Eq
      (hookOf attrs none (some m) (.endTraining ex) kw w) := by
  have he : m.sig.args ++ m.sig.kwonly ≠ [] := by rw [hargs]; simp
  obtain ⟨names, ren, h1, h2, h3, h4, h5⟩ := wrap_names hw
  have heq : hookOf attrs none (some m) (.endTraining ex) kw w
      = m.call [.exc ex] (addRenamed kw ren (pick kw names)) w := by
    unfold hookOf wrapMethod
    simp only [hw.varargs, hw.varkw, Bool.or_self, Bool.false_eq_true, if_false, if_neg he, h1]
    rfl
  obtain ⟨ha, hb⟩ := plain_args hw names ren h2 h4 h5 kw
  have hwf : wanted attrs m.sig kw.get? kw.get? first = none := by
    unfold wanted
    rw [keyOf_none hfirst, if_pos (by rw [hargs]; simp), Dict.get?_none_iff.2 hkw]
  have hbind := bind_eq m.sig [.exc ex] (addRenamed kw ren (pick kw names)) hw.varargs hw.varkw hw.noSelf
    (by rw [hargs]; simp) (fun k hk => ⟨hb k hk, by
      rw [hargs]
      simp only [List.zip_cons_cons, List.zip_nil_right, Dict.keys_cons, Dict.keys_nil, List.mem_singleton]
      rintro rfl
      obtain ⟨x, hx⟩ := Dict.get?_isSome_of_mem hk
      rw [ha, hwf] at hx
      simp at hx⟩)
  have hget : ∀ p, (Dict.get? (m.sig.args.zip [(PyVal.exc ex : PyVal V)]) p).or
      (Dict.get? (addRenamed kw ren (pick kw names)) p)
      = if p = first then some (.exc ex) else wanted attrs m.sig kw.get? kw.get? p := by
    intro p
    rw [hargs, ha]
    simp only [List.zip_cons_cons, List.zip_nil_right, Dict.get?]
    by_cases hp : first = p
    · simp [hp]
    · rw [if_neg hp, if_neg (Ne.symm hp)]; simp
  simp only [hget] at hbind
  rw [heq]
  unfold Receives Method.call
  constructor
  · intro hreq
    rw [hbind.1 hreq]
    exact ⟨_, fun p => by rw [get?_append, hget], rfl, rfl, rfl⟩
  · intro hreq
    rw [hbind.2 hreq]

/-- **C42** (limits). If the state has a key `self`, every hook that declares an argument raises a `TypeError`. -/
theorem C42_self_key (attrs : Dict String String) (m : Method W V) (hw : WellDeclared attrs m.sig) (h : Hook)
    (hpos : ∀ ex, h ≠ .endTraining ex) (hne : m.sig.args ++ m.sig.kwonly ≠ []) (kw : Dict String (PyVal V))
    (hself : "self" ∈ kw.keys) (w : GWorld W V) :
    hookOf attrs none (some m) h kw w = (w, .error (.error .typeError)) := by
  obtain ⟨names, ren, h1, h2, h3, h4, h5⟩ := wrap_names hw
  have hp0 : (h.positional : List (PyVal V)) = [] := by
    cases h <;> first | rfl | exact absurd rfl (hpos _)
  obtain ⟨x, hx⟩ := Dict.get?_isSome_of_mem hself
  unfold hookOf wrapMethod
  simp only [hw.varargs, hw.varkw, Bool.or_self, Bool.false_eq_true, if_false, if_neg hne, h1, hp0]
  unfold callPlain Method.call Sig.bind
  have hin : "self" ∈ Dict.keys (addRenamed kw ren (pick kw ("self" :: names))) := by
    by_contra hc
    have := Dict.get?_none_iff.2 hc
    rw [addRenamed_get? _ _ _ h4, pick_get?, if_pos (by simp), hx] at this
    simp at this
  obtain ⟨y, hy⟩ := Dict.get?_isSome_of_mem hin
  simp only [List.length_nil, List.drop_zero]
  rw [if_pos]
  refine Or.inr (Or.inl (List.any_eq_true.2 ⟨_, Dict.mem_of_get? hy, by simp⟩))

/-! ## C43, C44 -/

/-- The loop over the bound parameters in a callback with a group, if every bound key that the group has is also in
the state. -/
theorem addRenamedGroup_ok (g kw : Dict String (PyVal V)) (ren : Dict String String) (inner outer : Dict String (PyVal V))
    (hn : ren.keys.Nodup) (hin : ∀ p ∈ ren.keys, p ∉ Dict.keys inner)
    (hk : ∀ arg key, ren.get? arg = some key → key ∈ g.keys → key ∈ kw.keys) :
    ∃ inner' outer', addRenamedGroup g kw ren (inner, outer) = .ok (inner', outer') ∧
      ∀ p, (Dict.get? inner' p).or (Dict.get? outer' p)
        = ((ren.get? p).bind kw.get?).or ((Dict.get? inner p).or (Dict.get? outer p)) := by
  induction ren generalizing inner outer with
  | nil => exact ⟨inner, outer, rfl, fun p => by simp [Dict.get?]⟩
  | cons ak rest ih =>
    obtain ⟨arg, key⟩ := ak
    obtain ⟨hn1, hn2⟩ := List.nodup_cons.1 hn
    have hrest : ∀ a k, Dict.get? rest a = some k → Dict.get? ((arg, key) :: rest) a = some k := by
      intro a k h
      have : arg ≠ a := fun e => hn1 (e ▸ Dict.mem_keys_of_mem (Dict.mem_of_get? h))
      simp [Dict.get?, this, h]
    have hk' : ∀ a k, Dict.get? rest a = some k → k ∈ g.keys → k ∈ kw.keys := fun a k h => hk a k (hrest a k h)
    have hkey := hk arg key (by simp [Dict.get?])
    have hne : ∀ p ∈ Dict.keys rest, p ≠ arg := fun p hp e => hn1 (e ▸ hp)
    unfold addRenamedGroup
    by_cases hg : g.contains key = true
    · rw [if_pos hg]
      obtain ⟨x, hx⟩ := Dict.get?_isSome_of_mem (hkey (Dict.contains_iff.1 hg))
      simp only [hx]
      obtain ⟨i', o', h1, h2⟩ := ih (inner.set arg x) outer hn2 (fun p hp h => by
        rcases Dict.mem_keys_set.1 h with h | h
        · exact hne p hp h
        · exact hin p (List.mem_cons_of_mem _ hp) h) hk'
      refine ⟨i', o', h1, fun p => ?_⟩
      rw [h2]
      simp only [Dict.get?]
      by_cases hp : arg = p
      · subst hp
        rw [if_pos rfl, Dict.get?_none_iff.2 hn1, Dict.get?_set_self]
        simp [hx]
      · rw [if_neg hp, Dict.get?_set_ne hp]
    · rw [if_neg hg]
      cases hx : kw.get? key with
      | none =>
        obtain ⟨i', o', h1, h2⟩ := ih inner outer hn2 (fun p hp => hin p (List.mem_cons_of_mem _ hp)) hk'
        refine ⟨i', o', h1, fun p => ?_⟩
        rw [h2]
        simp only [Dict.get?]
        by_cases hp : arg = p
        · subst hp
          rw [if_pos rfl, Dict.get?_none_iff.2 hn1]
          simp [hx]
        · rw [if_neg hp]
      | some x =>
        obtain ⟨i', o', h1, h2⟩ := ih inner (outer.set arg x) hn2 (fun p hp => hin p (List.mem_cons_of_mem _ hp)) hk'
        refine ⟨i', o', h1, fun p => ?_⟩
        rw [h2]
        simp only [Dict.get?]
        by_cases hp : arg = p
        · subst hp
          rw [if_pos rfl, Dict.get?_none_iff.2 hn1, Dict.get?_set_self,
            Dict.get?_none_iff.2 (hin arg (List.mem_cons_self ..))]
          simp [hx]
        · rw [if_neg hp, Dict.get?_set_ne hp]

theorem addRenamedGroup_error (g kw : Dict String (PyVal V)) (ren : Dict String String)
    (io : Dict String (PyVal V) × Dict String (PyVal V)) (arg key : String) (hr : ren.get? arg = some key)
    (hg : key ∈ g.keys) (hk : key ∉ kw.keys) : addRenamedGroup g kw ren io = .error .keyError := by
  induction ren generalizing io with
  | nil => simp [Dict.get?] at hr
  | cons ak rest ih =>
    obtain ⟨arg', key'⟩ := ak
    obtain ⟨inner, outer⟩ := io
    unfold addRenamedGroup
    simp only [Dict.get?] at hr
    by_cases ha : arg' = arg
    · rw [if_pos ha] at hr
      cases hr
      rw [if_pos (Dict.contains_iff.2 hg), Dict.get?_none_iff.2 hk]
    · rw [if_neg ha] at hr
      split
      · split
        · rfl
        · exact ih _ hr
      · split
        · exact ih _ hr
        · exact ih _ hr

/-- Calling a method with declared keywords only. -/
theorem receives_call (m : Method W V) {attrs : Dict String String} (hw : WellDeclared attrs m.sig)
    (d : Dict String (PyVal V)) (args : String → Option (PyVal V)) (hd : ∀ p, Dict.get? d p = args p)
    (hp : ∀ k x, args k = some x → k ∈ m.sig.args ++ m.sig.kwonly) (w : GWorld W V) :
    Receives m args w Eq (m.call [] d w) := by
  have hb := bind_eq m.sig [] d hw.varargs hw.varkw hw.noSelf (by simp) (fun k hk => by
    obtain ⟨x, hx⟩ := Dict.get?_isSome_of_mem hk
    exact ⟨hp k x (hd k ▸ hx), by simp⟩)
  simp only [List.zip_nil_right, Dict.get?, Option.none_or, hd, List.nil_append] at hb
  unfold Receives Method.call
  constructor
  · intro hreq
    rw [hb.1 hreq]
    exact ⟨_, hd, rfl, rfl, rfl⟩
  · intro hreq
    rw [hb.2 hreq]

/-- The same for a method whose first argument is given by position. -/
theorem receives_call_first (m : Method W V) {attrs : Dict String String} (hw : WellDeclared attrs m.sig)
    (first : String) (more : List String) (hargs : m.sig.args = first :: more) (x : PyVal V)
    (d : Dict String (PyVal V)) (args : String → Option (PyVal V)) (hd : ∀ p, Dict.get? d p = args p)
    (hp : ∀ k x, args k = some x → k ∈ m.sig.args ++ m.sig.kwonly) (hf : args first = none) (w : GWorld W V) :
    Receives m (fun p => if p = first then some x else args p) w Eq (m.call [x] d w) := by
  have hb := bind_eq m.sig [x] d hw.varargs hw.varkw hw.noSelf (by rw [hargs]; simp) (fun k hk => by
    obtain ⟨y, hy⟩ := Dict.get?_isSome_of_mem hk
    refine ⟨hp k y (hd k ▸ hy), ?_⟩
    rw [hargs]
    simp only [List.zip_cons_cons, List.zip_nil_right, Dict.keys_cons, Dict.keys_nil, List.mem_singleton]
    rintro rfl
    rw [hd, hf] at hy
    simp at hy)
  have hget : ∀ p, (Dict.get? (m.sig.args.zip [x]) p).or (Dict.get? d p) = if p = first then some x else args p := by
    intro p
    rw [hargs, hd]
    simp only [List.zip_cons_cons, List.zip_nil_right, Dict.get?]
    by_cases hp : first = p
    · simp [hp]
    · rw [if_neg hp, if_neg (Ne.symm hp)]; simp
  simp only [hget] at hb
  unfold Receives Method.call
  constructor
  · intro hreq
    rw [hb.1 hreq]
    exact ⟨_, fun p => by rw [get?_append, hget], rfl, rfl, rfl⟩
  · intro hreq
    rw [hb.2 hreq]

theorem wanted_declared {attrs : Dict String String} {sig : Sig} (hw : WellDeclared attrs sig)
    (f g : String → Option (PyVal V)) (k : String) (x : PyVal V) (h : wanted attrs sig f g k = some x) :
    k ∈ sig.args ++ sig.kwonly := by
  unfold wanted at h
  by_cases hp : k ∈ Dict.keys sig.members
  · obtain ⟨member, hm⟩ := Dict.get?_isSome_of_mem hp
    exact (hw.declared _ (Dict.mem_of_get? hm)).1
  · rw [keyOf_none hp] at h
    by_contra hd
    simp [hd] at h

/-- What the group wrapper hands on, if every bound key that the group has is also in the state. -/
theorem group_args {attrs : Dict String String} {sig : Sig} (hw : WellDeclared attrs sig) (names : List String)
    (ren : Dict String String) (hn : ∀ v, v ∈ names ↔ v ∈ sig.args ++ sig.kwonly ∧ v ∉ Dict.keys sig.members)
    (hr : ren.keys.Nodup) (hk : ∀ p, ren.get? p = keyOf attrs sig p) (g kw : Dict String (PyVal V))
    (hb : ∀ p key, keyOf attrs sig p = some key → key ∈ g.keys → key ∈ kw.keys) :
    ∃ inner outer, addRenamedGroup g kw ren (pick g names, pick kw (names.filter fun v => !g.contains v))
        = .ok (inner, outer) ∧
      ∀ p, Dict.get? (inner ++ outer) p = wanted attrs sig (fun n => (g.get? n).or (kw.get? n)) kw.get? p := by
  have hmem : ∀ p ∈ ren.keys, p ∈ Dict.keys sig.members := by
    intro p hp
    obtain ⟨key, hkey⟩ := Dict.get?_isSome_of_mem hp
    rw [hk] at hkey
    by_contra hc
    rw [keyOf_none hc] at hkey
    simp at hkey
  obtain ⟨inner, outer, h1, h2⟩ := addRenamedGroup_ok g kw ren (pick g names)
    (pick kw (names.filter fun v => !g.contains v)) hr
    (fun p hp h => ((hn p).1 ((pick_keys_sublist _ _).subset h)).2 (hmem p hp))
    (fun arg key h => hb arg key (hk arg ▸ h))
  refine ⟨inner, outer, h1, fun p => ?_⟩
  rw [get?_append, h2, hk, pick_get?, pick_get?]
  unfold wanted
  by_cases hp : p ∈ Dict.keys sig.members
  · obtain ⟨key, hkey⟩ := keyOf_declared hw hp
    have : p ∉ names := fun h => ((hn p).1 h).2 hp
    rw [hkey, if_neg this, if_neg (fun h => this (List.mem_of_mem_filter h))]
    simp
  · rw [keyOf_none hp]
    by_cases hd : p ∈ sig.args ++ sig.kwonly
    · have hin := (hn p).2 ⟨hd, hp⟩
      rw [if_pos hin, if_pos hd]
      cases hg : g.get? p with
      | some x => simp [hg]
      | none =>
        rw [if_pos (List.mem_filter.2 ⟨hin, by simp [Dict.contains, hg]⟩)]
        simp [hg]
    · have : p ∉ names := fun h => hd ((hn p).1 h).1
      rw [if_neg this, if_neg (fun h => this (List.mem_of_mem_filter h))]
      simp [hd]

theorem merge_delivered (group : String) (a : Nat) (r : HookResult W V)
    (hheap : ∀ i, (Dict.keys (r.1.heap i)).Nodup) (hres : ∀ res, r.2 = .ok (some res) → (Dict.keys res).Nodup) :
    Delivered group a r (mergeGroup group a r) := by
  obtain ⟨w, e | (_ | res)⟩ := r
  · exact ⟨fun _ => rfl, fun res b h => by simp at h⟩
  · exact ⟨fun _ => rfl, fun res b h => by simp at h⟩
  · constructor
    · intro h
      unfold mergeGroup
      cases hg : Dict.get? res group with
      | none => simp [hg]
      | some x => exact absurd hg (h res x rfl)
    · rintro res' b h hg
      cases h
      unfold mergeGroup
      simp only [hg]
      refine ⟨trivial, fun i hi => by simp [hi], fun k => ?_, _, rfl, fun k => ?_⟩
      · simp only [if_pos]
        rw [Dict.get?_update _ _ (hheap b) k]
        cases Dict.get? (w.heap b) k <;> rfl
      · rw [Dict.get?_erase (hres _ rfl)]
        simp only [eq_comm]

theorem Spec.Receives.mono {m : Method W V} {args : String → Option (PyVal V)} {w : GWorld W V}
    {R : HookResult W V → HookResult W V → Prop} {r r' : HookResult W V} (h : Receives m args w Eq r)
    (hR : ∀ b, r = m.body b w → R r r') (hE : r = (w, .error (.error .typeError)) → r' = r) : Receives m args w R r' := by
  refine ⟨fun hreq => ?_, fun hreq => ?_⟩
  · obtain ⟨b, h1, h2, h3, h4⟩ := h.1 hreq
    exact ⟨b, h1, h2, h3, h4 ▸ hR b h4.symm⟩
  · rw [hE (h.2 hreq), h.2 hreq]

/-- **C43** (arguments and results). A hook (other than `end_training`) of a callback with a data group gets each
declared argument from the group if the group has it, else from the state; an argument bound to a key gets the state's
value of that key. A result under the group's name is merged into the group only, all other results go on. Every bound
key that is in the group is in the state too; see `C44_lost` for the opposite. Neither has a key `self`. -/
theorem C43_routing (attrs : Dict String String) (group : String) (m : Method W V) (hw : WellDeclared attrs m.sig)
    (h : Hook) (hpos : ∀ ex, h ≠ .endTraining ex) (hne : m.sig.args ++ m.sig.kwonly ≠ []) (kw : Dict String (PyVal V))
    (w : GWorld W V) (a : Nat) (hg : kw.get? group = some (.dict a)) (hself : "self" ∉ kw.keys)
    (hself' : "self" ∉ (w.heap a).keys)
    (hb : ∀ p key, keyOf attrs m.sig p = some key → key ∈ (w.heap a).keys → key ∈ kw.keys)
    (hd : ∀ b, DistinctKeys (m.body b w)) :
    Receives m (wanted attrs m.sig (fun n => ((w.heap a).get? n).or (kw.get? n)) kw.get?) w (Delivered group a)
      (hookOf attrs (some group) (some m) h kw w) := by
  obtain ⟨names, ren, h1, h2, h3, h4, h5⟩ := wrap_names hw
  have hp0 : (h.positional : List (PyVal V)) = [] := by
    cases h <;> first | rfl | exact absurd rfl (hpos _)
  obtain ⟨inner, outer, hi, ho⟩ := group_args hw names ren h2 h4 h5 (w.heap a) kw hb
  have hfil : (("self" :: names).filter fun v => !(w.heap a).contains v)
      = "self" :: names.filter fun v => !(w.heap a).contains v := by
    rw [List.filter_cons, if_pos (by simp [Dict.contains, Dict.get?_none_iff.2 hself'])]
  have heq : hookOf attrs (some group) (some m) h kw w = mergeGroup group a (m.call [] (inner ++ outer) w) := by
    unfold hookOf wrapMethod
    simp only [hw.varargs, hw.varkw, Bool.or_self, Bool.false_eq_true, if_false, if_neg hne, h1, hp0]
    unfold callGroup
    simp only [hg, List.length_nil, List.drop_zero, hfil]
    rw [pick_cons_none _ _ _ (Dict.get?_none_iff.2 hself), pick_cons_none _ _ _ (Dict.get?_none_iff.2 hself'), hi]
  rw [heq]
  refine (receives_call m hw _ _ ho (wanted_declared hw _ _) w).mono (fun b hbd => ?_) (fun he => by rw [he]; rfl)
  rw [hbd]
  exact merge_delivered group a _ (hd b).1 (hd b).2

/-- **C43** (`end_training`). The first argument gets the exception. -/
theorem C43_end_training (attrs : Dict String String) (group : String) (m : Method W V) (hw : WellDeclared attrs m.sig)
    (first : String) (more : List String) (hargs : m.sig.args = first :: more)
    (hfirst : first ∉ Dict.keys m.sig.members) (ex : Exc) (kw : Dict String (PyVal V)) (w : GWorld W V) (a : Nat)
    (hg : kw.get? group = some (.dict a)) (hf : first ∉ kw.keys) (hf' : first ∉ (w.heap a).keys)
    (hb : ∀ p key, keyOf attrs m.sig p = some key → key ∈ (w.heap a).keys → key ∈ kw.keys)
    (hd : ∀ b, DistinctKeys (m.body b w)) :
    Receives m (fun p => if p = first then some (.exc ex) else
        wanted attrs m.sig (fun n => ((w.heap a).get? n).or (kw.get? n)) kw.get? p) w (Delivered group a)
      (hookOf attrs (some group) (some m) (.endTraining ex) kw w) := by
  obtain ⟨names, ren, h1, h2, h3, h4, h5⟩ := wrap_names hw
  have hne : m.sig.args ++ m.sig.kwonly ≠ [] := by rw [hargs]; simp
  obtain ⟨inner, outer, hi, ho⟩ := group_args hw names ren h2 h4 h5 (w.heap a) kw hb
  have heq : hookOf attrs (some group) (some m) (.endTraining ex) kw w
      = mergeGroup group a (m.call [.exc ex] (inner ++ outer) w) := by
    unfold hookOf wrapMethod
    simp only [hw.varargs, hw.varkw, Bool.or_self, Bool.false_eq_true, if_false, if_neg hne, h1]
    unfold callGroup
    simp only [hg, Hook.positional, List.length_singleton, List.drop_one, List.tail_cons]
    rw [hi]
  have hwf : wanted attrs m.sig (fun n => ((w.heap a).get? n).or (kw.get? n)) kw.get? first = none := by
    unfold wanted
    rw [keyOf_none hfirst, if_pos (by rw [hargs]; simp)]
    simp only [Dict.get?_none_iff.2 hf, Dict.get?_none_iff.2 hf']
    rfl
  rw [heq]
  refine (receives_call_first m hw first more hargs (.exc ex) _ _ ho (wanted_declared hw _ _) hwf w).mono
    (fun b hbd => ?_) (fun he => by rw [he]; rfl)
  rw [hbd]
  exact merge_delivered group a _ (hd b).1 (hd b).2

/-- **C43** (missing group). If the state lacks the group, a hook that declares an argument is a `KeyError`; the method
is not called. -/
theorem C43_missing (attrs : Dict String String) (group : String) (m : Method W V) (hw : WellDeclared attrs m.sig)
    (h : Hook) (hne : m.sig.args ++ m.sig.kwonly ≠ []) (kw : Dict String (PyVal V)) (w : GWorld W V)
    (hg : group ∉ kw.keys) : hookOf attrs (some group) (some m) h kw w = (w, .error (.error .keyError)) := by
  obtain ⟨names, ren, h1, -⟩ := wrap_names hw
  unfold hookOf wrapMethod
  simp only [hw.varargs, hw.varkw, Bool.or_self, Bool.false_eq_true, if_false, if_neg hne, h1]
  unfold callGroup
  rw [Dict.get?_none_iff.2 hg]

/-- **C43** (no arguments). A hook that declares no argument is called as it is, group or not, and its result goes on
unchanged, even a part of it under the name of the group. -/
theorem C43_no_arguments (attrs : Dict String String) (group : Option String) (m : Method W V)
    (hw : WellDeclared attrs m.sig) (h : Hook) (he : m.sig.args ++ m.sig.kwonly = []) (kw : Dict String (PyVal V))
    (w : GWorld W V) : hookOf attrs group (some m) h kw w = m.body ⟨[], [], []⟩ w := hookOf_empty hw he kw w

/-- **C44** as it is wanted: an argument bound to a key that the group has gets the group's value. -/
def C44_claim (W V : Type) : Prop :=
  ∀ (attrs : Dict String String) (group : String) (m : Method W V), WellDeclared attrs m.sig →
    ∀ (h : Hook), (∀ ex, h ≠ .endTraining ex) → m.sig.args ++ m.sig.kwonly ≠ [] →
    ∀ (kw : Dict String (PyVal V)) (w : GWorld W V) (a : Nat), kw.get? group = some (.dict a) → "self" ∉ kw.keys →
    "self" ∉ (w.heap a).keys → (∀ b, DistinctKeys (m.body b w)) →
    Receives m (wanted attrs m.sig (fun n => ((w.heap a).get? n).or (kw.get? n))
      (fun key => ((w.heap a).get? key).or (kw.get? key))) w (Delivered group a)
      (hookOf attrs (some group) (some m) h kw w)

/-- **C44_partial**. It holds if, for the bound keys that are in the group, the state happens to have the same value.
Missing: the case that the state has no or another value, where it fails (`C44_lost`, `C44_wrong_value`). -/
theorem C44_partial (attrs : Dict String String) (group : String) (m : Method W V) (hw : WellDeclared attrs m.sig)
    (h : Hook) (hpos : ∀ ex, h ≠ .endTraining ex) (hne : m.sig.args ++ m.sig.kwonly ≠ []) (kw : Dict String (PyVal V))
    (w : GWorld W V) (a : Nat) (hg : kw.get? group = some (.dict a)) (hself : "self" ∉ kw.keys)
    (hself' : "self" ∉ (w.heap a).keys)
    (hb : ∀ p key, keyOf attrs m.sig p = some key → key ∈ (w.heap a).keys → kw.get? key = (w.heap a).get? key)
    (hd : ∀ b, DistinctKeys (m.body b w)) :
    Receives m (wanted attrs m.sig (fun n => ((w.heap a).get? n).or (kw.get? n))
      (fun key => ((w.heap a).get? key).or (kw.get? key))) w (Delivered group a)
      (hookOf attrs (some group) (some m) h kw w) := by
  have := C43_routing attrs group m hw h hpos hne kw w a hg hself hself' (fun p key hk hin => by
    by_contra hc
    have h1 := hb p key hk hin
    rw [Dict.get?_none_iff.2 hc] at h1
    exact Dict.get?_none_iff.1 h1.symm hin) hd
  convert this using 1
  funext p
  unfold wanted
  cases hk : keyOf attrs m.sig p with
  | none => rfl
  | some key =>
    by_cases hin : key ∈ (w.heap a).keys
    · simp [hb p key hk hin]
    · simp [Dict.get?_none_iff.2 hin]

/-- **C44** (what happens, 1). If a bound key is in the group but not in the state, the hook raises a `KeyError`; the
method is not called. -/
theorem C44_lost (attrs : Dict String String) (group : String) (m : Method W V) (hw : WellDeclared attrs m.sig)
    (h : Hook) (kw : Dict String (PyVal V)) (w : GWorld W V) (a : Nat) (hg : kw.get? group = some (.dict a))
    (p key : String) (hp : keyOf attrs m.sig p = some key) (hin : key ∈ (w.heap a).keys) (hk : key ∉ kw.keys) :
    hookOf attrs (some group) (some m) h kw w = (w, .error (.error .keyError)) := by
  obtain ⟨names, ren, h1, h2, h3, h4, h5⟩ := wrap_names hw
  have hne : m.sig.args ++ m.sig.kwonly ≠ [] := by
    intro he
    have : p ∉ Dict.keys m.sig.members := fun h => by
      obtain ⟨member, hm⟩ := Dict.get?_isSome_of_mem h
      have := (hw.declared _ (Dict.mem_of_get? hm)).1
      rw [he] at this; simp at this
    rw [keyOf_none this] at hp
    simp at hp
  unfold hookOf wrapMethod
  simp only [hw.varargs, hw.varkw, Bool.or_self, Bool.false_eq_true, if_false, if_neg hne, h1]
  unfold callGroup
  simp only [hg]
  rw [addRenamedGroup_error _ _ _ _ p key (by rw [h5, hp]) hin hk]

/-- **C44** (what happens, 2). If a bound key is in the group and in the state, and no parameter lacks a value, the
method is called with the state's value, whatever the group has. -/
theorem C44_wrong_value (attrs : Dict String String) (group : String) (m : Method W V) (hw : WellDeclared attrs m.sig)
    (h : Hook) (hpos : ∀ ex, h ≠ .endTraining ex) (kw : Dict String (PyVal V)) (w : GWorld W V) (a : Nat)
    (hg : kw.get? group = some (.dict a)) (hself : "self" ∉ kw.keys) (hself' : "self" ∉ (w.heap a).keys)
    (hb : ∀ p key, keyOf attrs m.sig p = some key → key ∈ (w.heap a).keys → key ∈ kw.keys) (hd : ∀ b, DistinctKeys (m.body b w))
    (hreq : m.sig.required = []) (p key : String) (hp : keyOf attrs m.sig p = some key)
    (hin : key ∈ (w.heap a).keys) :
    ∃ b, Dict.get? b.named p = kw.get? key ∧
      Delivered group a (m.body b w) (hookOf attrs (some group) (some m) h kw w) := by
  have hne : m.sig.args ++ m.sig.kwonly ≠ [] := by
    intro he
    have hw0 := wanted_empty hw he kw.get? (fun _ => kw.get? key) p
    obtain ⟨x, hx⟩ := Dict.get?_isSome_of_mem (hb p key hp hin)
    unfold wanted at hw0
    rw [hp] at hw0
    simp [hx] at hw0
  obtain ⟨b, h1, -, -, h2⟩ := (C43_routing attrs group m hw h hpos hne kw w a hg hself hself' hb hd).1 (by simp [hreq])
  exact ⟨b, by rw [h1]; unfold wanted; rw [hp], h2⟩

/-! ## C42, C43 for the callbacks that the trainer gets -/

/-- **C42** (callbacks without group). Neither the object nor its class names a group: the hooks get their arguments from the state.
Hooks that are not overridden do nothing, and it is the object's order and cycle that the trainer sees. -/
theorem C42_callback (ident : Nat) (order : Int) (cycle : Option Int) (attrs : Dict String String) (inst : Option String)
    (hi : inst = none ∨ inst = some "") (methods : Hook → Option (Method W V)) (h : Hook) (hpos : ∀ ex, h ≠ .endTraining ex)
    (kw : Dict String (PyVal V)) (hself : "self" ∉ kw.keys) (w : GWorld W V) :
    let cb := mkCallback ident order cycle attrs (groupName inst none) methods
    cb.ident = ident ∧ cb.order = order ∧ cb.cycle = cycle ∧ (methods h = none → cb.hook h kw w = (w, .ok none)) ∧
      ∀ m, methods h = some m → WellDeclared attrs m.sig →
        Receives m (wanted attrs m.sig kw.get? kw.get?) w Eq (cb.hook h kw w) := by
  have hg : groupName inst none = none := by rcases hi with rfl | rfl <;> rfl
  refine ⟨rfl, rfl, rfl, fun hn => ?_, fun m hm hw => ?_⟩
  · simp only [mkCallback, hn]; rfl
  · simp only [mkCallback, hm, hg]
    exact C42_plain attrs m hw h hpos kw hself w

/-- **C43** (callbacks with a group). The group is the one that the object names, or that of its class if the object names none or
an empty one; the hooks get their arguments as in `C43_routing`. -/
theorem C43_callback (ident : Nat) (order : Int) (cycle : Option Int) (attrs : Dict String String) (inst cls : Option String)
    (group : String) (hgroup : (inst = some group ∧ group ≠ "") ∨ ((inst = none ∨ inst = some "") ∧ cls = some group))
    (methods : Hook → Option (Method W V)) (h : Hook) (hpos : ∀ ex, h ≠ .endTraining ex) (kw : Dict String (PyVal V)) (w : GWorld W V) :
    let cb := mkCallback ident order cycle attrs (groupName inst cls) methods
    cb.ident = ident ∧ cb.order = order ∧ cb.cycle = cycle ∧ (methods h = none → cb.hook h kw w = (w, .ok none)) ∧
      ∀ m, methods h = some m → WellDeclared attrs m.sig → m.sig.args ++ m.sig.kwonly ≠ [] →
        ∀ a, kw.get? group = some (.dict a) → "self" ∉ kw.keys → "self" ∉ (w.heap a).keys →
        (∀ p key, keyOf attrs m.sig p = some key → key ∈ (w.heap a).keys → key ∈ kw.keys) →
        (∀ b, DistinctKeys (m.body b w)) →
        Receives m (wanted attrs m.sig (fun n => ((w.heap a).get? n).or (kw.get? n)) kw.get?) w (Delivered group a)
          (cb.hook h kw w) := by
  have hg : groupName inst cls = some group := by
    rcases hgroup with ⟨rfl, hne⟩ | ⟨rfl | rfl, rfl⟩
    · unfold groupName
      split
      · next h => cases h
      · next h => exact absurd (Option.some.inj h) hne
      · next h => exact h.symm
    · rfl
    · rfl
  refine ⟨rfl, rfl, rfl, fun hn => ?_, fun m hm hw hne a ha hs hs' hb hd => ?_⟩
  · simp only [mkCallback, hn]; rfl
  · simp only [mkCallback, hm, hg]
    exact C43_routing attrs group m hw h hpos hne kw w a ha hs hs' hb hd

/-! ## Concrete cases -/

namespace CallbackDemo

/-- A hook `begin_batch(self, x, y, *, scale=…)`; `x` is bound to the key that the attribute `key` names. It returns the
arguments that it got, under `seen`, and a new value for its group. -/
def demo : Method Unit Nat where
  sig := ⟨["x", "y"], ["scale"], ["x", "y"], false, false, [("x", "key")]⟩
  body b w := ({ w with heap := fun i => if i = 9 then b.named else if i = 8 then [("q", .val 70)] else w.heap i },
    .ok (some [("seen", .dict 9), ("grp", .dict 8), ("r", .val 5)]))

/-- The attributes of the callback. -/
def attrs : Dict String String := [("key", "obs")]

/-- The group. -/
def world (g : Dict String (PyVal Nat)) : GWorld Unit Nat := ⟨fun i => if i = 1 then g else [], ()⟩

/-- The dict of arguments that the method got, and the rest of the outcome. -/
def look (r : HookResult Unit Nat) : Dict String (PyVal Nat) × Dict String (PyVal Nat) × Except Exc (Option (Dict String (PyVal Nat))) :=
  (r.1.heap 9, r.1.heap 1, r.2)

theorem demo_well : WellDeclared attrs demo.sig := by
  constructor <;> decide

/- No group: `x` from the key `obs`, `y` from the state, `scale` left to its default, `z` not passed on. -/
example : look (hookOf attrs none (some demo) .beginBatch [("obs", .val 1), ("y", .val 2), ("z", .val 3)] (world [])) =
    ([("y", .val 2), ("x", .val 1)], [], .ok (some [("seen", .dict 9), ("grp", .dict 8), ("r", .val 5)])) := by
  decide +kernel

/- Without `y`: `TypeError`. -/
example : look (hookOf attrs none (some demo) .beginBatch [("obs", .val 1), ("z", .val 3)] (world [])) =
    ([], [], .error (.error .typeError)) := by decide +kernel

/- With a group: `y` from the group, not the state, `scale` from the state; the group gets `q` only. -/
example : look (hookOf attrs (some "grp") (some demo) .beginBatch
      [("obs", .val 1), ("y", .val 2), ("grp", .dict 1), ("scale", .val 4)] (world [("y", .val 20), ("q", .val 60)])) =
    ([("y", .val 20), ("scale", .val 4), ("x", .val 1)], [("y", .val 20), ("q", .val 70)],
      .ok (some [("seen", .dict 9), ("r", .val 5)])) := by
  decide +kernel

/- The bound key in the group: the state's value arrives, or a `KeyError`. -/
example : look (hookOf attrs (some "grp") (some demo) .beginBatch
      [("obs", .val 1), ("y", .val 2), ("grp", .dict 1)] (world [("obs", .val 100)])) =
    ([("x", .val 1), ("y", .val 2)], [("obs", .val 100), ("q", .val 70)], .ok (some [("seen", .dict 9), ("r", .val 5)])) := by
  decide +kernel

example : look (hookOf attrs (some "grp") (some demo) .beginBatch
      [("y", .val 2), ("grp", .dict 1)] (world [("obs", .val 100)])) =
    ([], [("obs", .val 100)], .error (.error .keyError)) := by
  decide +kernel

/- A state key `self`. -/
example : look (hookOf attrs none (some demo) .beginBatch [("obs", .val 1), ("y", .val 2), ("self", .val 3)] (world [])) =
    ([], [], .error (.error .typeError)) := by decide +kernel

/-- `end_training(self, exc, y)` -/
def atEnd : Method Unit Nat := { demo with sig := ⟨["exc", "y"], [], ["exc", "y"], false, false, []⟩ }

example : look (hookOf attrs none (some atEnd) (.endTraining .shutdown) [("obs", .val 1), ("y", .val 2)] (world [])) =
    ([("exc", .exc .shutdown), ("y", .val 2)], [], .ok (some [("seen", .dict 9), ("grp", .dict 8), ("r", .val 5)])) := by
  decide +kernel

example : look (hookOf attrs none (some atEnd) (.endTraining .shutdown) [("exc", .val 1), ("y", .val 2)] (world [])) =
    ([], [], .error (.error .typeError)) := by
  decide +kernel

/- The group of the object wins over that of its class; an empty one does not count. -/
example : look ((mkCallback 0 5 none attrs (groupName (some "grp") (some "other")) fun _ => some demo).hook .beginBatch
      [("obs", .val 1), ("y", .val 2), ("grp", .dict 1), ("other", .dict 3)] (world [("y", .val 7)])) =
    look (hookOf attrs (some "grp") (some demo) .beginBatch
      [("obs", .val 1), ("y", .val 2), ("grp", .dict 1), ("other", .dict 3)] (world [("y", .val 7)])) := by decide +kernel

example : groupName (some "") (some "other") = some "other" := by decide +kernel

/-- A hook with the same arguments that does nothing. -/
def quiet : Method Unit Nat := { demo with body := fun _ w => (w, .ok none) }

end CallbackDemo

/-- **C44** fails: the bound key is in the group, the state has no such key, and the hook raises a `KeyError` instead of
calling the method with the group's value. -/
theorem C44_false : ¬ C44_claim Unit Nat := by
  intro hc
  have h := hc CallbackDemo.attrs "grp" CallbackDemo.quiet CallbackDemo.demo_well .beginBatch (by simp) (by decide)
    [("y", .val 2), ("grp", .dict 1)] (CallbackDemo.world [("obs", .val 100)]) 1 (by decide) (by decide) (by decide)
    (fun b => ⟨fun i => by
      show (Dict.keys (if i = 1 then [("obs", PyVal.val 100)] else ([] : Dict String (PyVal Nat)))).Nodup
      split <;> simp, by simp [CallbackDemo.quiet]⟩)
  obtain ⟨b, -, -, -, h2⟩ := h.1 (by decide)
  have h3 := h2.other (by simp [CallbackDemo.quiet])
  rw [C44_lost _ _ CallbackDemo.quiet CallbackDemo.demo_well _ _ _ 1 (by decide) "x" "obs" (by decide) (by decide) (by decide)] at h3
  simp [CallbackDemo.quiet] at h3

end Verif
