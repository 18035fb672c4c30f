import Verif.Model.Logging
import Verif.Lemmas.Dict
import Verif.Lemmas.List
import Mathlib.Tactic.Ring
import Mathlib.Tactic.Linarith

/-!
# C47, C48: logged metrics
-/

namespace Verif.Props

open Verif

/-! ## Specification -/

/-- The numbers in a logged value. -/
def LogVal.numbers : LogVal → List Rat
  | .one x => [x]
  | .many xs => xs

/-- Everything logged for a key. -/
def loggedFor (key : String) (calls : List (String × LogVal)) : List Rat :=
  (calls.filter fun c => c.1 = key).flatMap fun c => LogVal.numbers c.2

/-- The last `n` elements. -/
def lastN (n : Nat) (l : List Rat) : List Rat := l.drop (l.length - n)

/-! ## Windows -/

theorem Window.append_lastN (n : Nat) (l : List Rat) (x : Rat) :
    (⟨n, lastN n l⟩ : Window).append x = ⟨n, lastN n (l ++ [x])⟩ := by
  unfold Window.append lastN
  simp only [List.length_append, List.length_singleton, List.length_drop]
  by_cases hn : n = 0
  · rw [if_pos hn]; subst hn; simp
  · rw [if_neg hn]
    congr 1
    split
    · rename_i h
      rw [show l.length - n = 0 by omega, show l.length + 1 - n = 0 by omega]; simp
    · rename_i h
      rw [List.drop_drop, List.drop_append_of_le_length (by omega)]
      congr 2; omega

theorem Window.extend_lastN (n : Nat) (l xs : List Rat) :
    (⟨n, lastN n l⟩ : Window).extend xs = ⟨n, lastN n (l ++ xs)⟩ := by
  unfold Window.extend
  induction xs generalizing l with
  | nil => simp
  | cons x xs ih =>
    rw [List.foldl_cons, Window.append_lastN, ih]
    simp

/-- The logs after some calls; a call that raises changes what it changes and the caller goes on. -/
def logAll (calls : List (String × LogVal)) (l : Logs) : Logs :=
  calls.foldl (fun l c => (l.logWindowed c.1 c.2).1) l

/-- What is known of a key after the calls. -/
structure KeyInv (l : Logs) (d n : Nat) (key : String) (calls : List (String × LogVal)) : Prop where
  default : l.defaultLength = d
  unseen : (∀ c ∈ calls, c.1 ≠ key) → l.windowed.get? key = none
  seen : (∃ c ∈ calls, c.1 = key) → l.windowed.get? key = some ⟨n, lastN n (loggedFor key calls)⟩ ∧
    l.cumulative.get? key = some (loggedFor key calls).sum

theorem pushWindow_eq {l : Logs} {key : String} {w : Window} {c : Rat} (hw : l.windowed.get? key = some w)
    (hc : l.cumulative.get? key = some c) (v : LogVal) :
    l.pushWindow key v = ({ l with
      windowed := l.windowed.set key (match v with
        | .many xs => w.extend xs
        | .one x => w.append x)
      cumulative := l.cumulative.set key (c + match v with
        | .many xs => xs.sum
        | .one x => x) }, .ok ()) := by
  unfold Logs.pushWindow
  simp only [hw, hc]
  cases v <;> rfl

theorem pushWindow_frame (l : Logs) (key : String) (v : LogVal) :
    (l.pushWindow key v).1.defaultLength = l.defaultLength ∧
    ∀ k, k ≠ key → (l.pushWindow key v).1.windowed.get? k = l.windowed.get? k ∧
      (l.pushWindow key v).1.cumulative.get? k = l.cumulative.get? k := by
  unfold Logs.pushWindow
  cases l.windowed.get? key with
  | none => exact ⟨rfl, fun _ _ => ⟨rfl, rfl⟩⟩
  | some w =>
    simp only
    cases l.cumulative.get? key with
    | none => exact ⟨rfl, fun k hk => ⟨by simp only; rw [Dict.get?_set_ne (Ne.symm hk)], rfl⟩⟩
    | some c =>
      exact ⟨rfl, fun k hk => ⟨by simp only; rw [Dict.get?_set_ne (Ne.symm hk)],
        by simp only; rw [Dict.get?_set_ne (Ne.symm hk)]⟩⟩

theorem logWindowed_frame (l : Logs) (key : String) (v : LogVal) :
    (l.logWindowed key v).1.defaultLength = l.defaultLength ∧
    ∀ k, k ≠ key → (l.logWindowed key v).1.windowed.get? k = l.windowed.get? k ∧
      (l.logWindowed key v).1.cumulative.get? k = l.cumulative.get? k := by
  unfold Logs.logWindowed
  split
  · exact pushWindow_frame l key v
  · cases Logs.windowLength l.defaultLength key with
    | error e => exact ⟨rfl, fun _ _ => ⟨rfl, rfl⟩⟩
    | ok n =>
      simp only
      obtain ⟨h1, h2⟩ := pushWindow_frame { l with
        windowed := l.windowed.set key ⟨n, []⟩
        cumulative := l.cumulative.set key 0 } key v
      refine ⟨h1, fun k hk => ?_⟩
      obtain ⟨h3, h4⟩ := h2 k hk
      rw [h3, h4]
      simp only [Dict.get?_set_ne (Ne.symm hk), and_self]

theorem loggedFor_snoc (key : String) (calls : List (String × LogVal)) (c : String × LogVal) :
    loggedFor key (calls ++ [c]) = loggedFor key calls ++ if c.1 = key then LogVal.numbers c.2 else [] := by
  unfold loggedFor
  rw [List.filter_append, List.flatMap_append]
  congr 1
  by_cases h : c.1 = key <;> simp [h]

theorem match_push (n : Nat) (l : List Rat) (v : LogVal) :
    (match v with
      | .many xs => (⟨n, lastN n l⟩ : Window).extend xs
      | .one x => (⟨n, lastN n l⟩ : Window).append x) = ⟨n, lastN n (l ++ LogVal.numbers v)⟩ := by
  cases v with
  | one x => exact Window.append_lastN n l x
  | many xs => exact Window.extend_lastN n l xs

theorem match_sum (v : LogVal) : (match v with
      | .many xs => xs.sum
      | .one x => x) = (LogVal.numbers v).sum := by
  cases v <;> simp [LogVal.numbers]

/-- C47: after any calls of `log_windowed_scalar`, for this and other keys, with numbers or lists, the window of
a key is the last `L` numbers logged for it and the cumulative value is their total, where `L` is fixed by the
key (`windowed[L]:` or the default length). -/
theorem C47_windows {d n : Nat} {key : String} (hn : Logs.windowLength d key = .ok n)
    (calls : List (String × LogVal)) (hk : ∃ c ∈ calls, c.1 = key) :
    (logAll calls (Logs.new d)).windowed.get? key = some ⟨n, lastN n (loggedFor key calls)⟩ ∧
    (logAll calls (Logs.new d)).cumulative.get? key = some (loggedFor key calls).sum := by
  suffices h : KeyInv (logAll calls (Logs.new d)) d n key calls from h.seen hk
  clear hk
  induction calls using snocInduction with
  | nil => exact ⟨rfl, fun _ => rfl, fun ⟨_, h, _⟩ => by simp at h⟩
  | snoc calls c ih =>
    have hstep : logAll (calls ++ [c]) (Logs.new d) = ((logAll calls (Logs.new d)).logWindowed c.1 c.2).1 := by
      simp [logAll]
    rw [hstep]
    generalize logAll calls (Logs.new d) = l at ih
    obtain ⟨k, v⟩ := c
    obtain ⟨f1, f2⟩ := logWindowed_frame l k v
    by_cases hkk : k = key
    · subst hkk
      refine ⟨by rw [f1]; exact ih.default, fun h => absurd rfl (h (k, v) (by simp)), fun _ => ?_⟩
      rw [loggedFor_snoc, if_pos rfl]
      by_cases hs : ∃ c ∈ calls, c.1 = k
      · obtain ⟨h1, h2⟩ := ih.seen hs
        unfold Logs.logWindowed
        rw [if_pos (by rw [Dict.contains_iff]; exact Dict.mem_keys_of_get? h1), pushWindow_eq h1 h2]
        simp only [Dict.get?_set_self, match_push, match_sum, List.sum_append, and_self]
      · have hs' : ∀ c ∈ calls, c.1 ≠ k := fun c hc he => hs ⟨c, hc, he⟩
        have h1 := ih.unseen hs'
        have hempty : loggedFor k calls = [] := by
          unfold loggedFor
          rw [List.filter_eq_nil_iff.2 (by simpa using hs')]; rfl
        unfold Logs.logWindowed
        rw [if_neg (by simp [Dict.contains, h1]), ih.default, hn]
        simp only
        rw [pushWindow_eq (w := ⟨n, []⟩) (c := 0) (by simp) (by simp), hempty]
        have := match_push n [] v
        simp only [lastN, List.drop_nil] at this
        simp only [Dict.get?_set_self, this, match_sum, zero_add, lastN, List.nil_append, and_self]
    · obtain ⟨g1, g2⟩ := f2 key (Ne.symm hkk)
      refine ⟨by rw [f1]; exact ih.default, ?_, ?_⟩
      · intro h
        rw [g1]
        exact ih.unseen fun c hc => h c (by simp [hc])
      · rintro ⟨c, hc, hck⟩
        rw [List.mem_append, List.mem_singleton] at hc
        rcases hc with hc | rfl
        · rw [g1, g2, loggedFor_snoc, if_neg hkk, List.append_nil]
          exact ih.seen ⟨c, hc, hck⟩
        · exact absurd hck hkk

theorem windowLength_plain (d : Nat) (key : String) (h : hasSub "windowed[".toList key.toList = false) :
    Logs.windowLength d key = .ok d := by
  unfold Logs.windowLength
  rw [h]; rfl

/-- C47: plain keys use the default window length: the window is the last `d` numbers logged for the key. -/
theorem C47_default_length (d : Nat) (key : String) (h : hasSub "windowed[".toList key.toList = false)
    (calls : List (String × LogVal)) (hk : ∃ c ∈ calls, c.1 = key) :
    (logAll calls (Logs.new d)).windowed.get? key = some ⟨d, lastN d (loggedFor key calls)⟩ ∧
    (logAll calls (Logs.new d)).cumulative.get? key = some (loggedFor key calls).sum :=
  C47_windows (windowLength_plain d key h) calls hk

theorem splitChar_append (c : Char) (a rest : List Char) (h : c ∉ a) : splitChar c (a ++ c :: rest) = a :: splitChar c rest := by
  induction a with
  | nil => simp [splitChar]
  | cons x a ih =>
    rw [List.mem_cons, not_or] at h
    rw [List.cons_append, splitChar, if_neg (Ne.symm h.1), ih h.2]

theorem splitChar_none (c : Char) (a : List Char) (h : c ∉ a) : splitChar c a = [a] := by
  induction a with
  | nil => rfl
  | cons x a ih =>
    rw [List.mem_cons, not_or] at h
    rw [splitChar, if_neg (Ne.symm h.1), ih h.2]

theorem hasSub_append (pat a rest : List Char) : hasSub pat (a ++ pat ++ rest) = true := by
  induction a with
  | nil =>
    cases pat with
    | nil => cases rest <;> simp [hasSub]
    | cons x pat =>
      simp only [List.nil_append, List.cons_append, hasSub]
      rw [Bool.or_eq_true]
      left
      simp
  | cons x a ih => simp only [List.cons_append, hasSub, Bool.or_eq_true]; right; simpa using ih

theorem parseNat_digits (n : Nat) : parseNat (Nat.toDigits 10 n) = .ok n := by
  have hne : (Nat.toDigits 10 n).isEmpty = false := by
    simp
  have hd : ∀ c ∈ Nat.toDigits 10 n, '0' ≤ c ∧ c ≤ '9' := fun c hc => by
    have := Nat.isDigit_of_mem_toDigits (by decide) (by decide) hc
    simp only [Char.isDigit, Bool.and_eq_true, decide_eq_true_eq] at this
    exact this
  have hall : (Nat.toDigits 10 n).all (fun c => '0' ≤ c && c ≤ '9') = true := by
    rw [List.all_eq_true]
    intro c hc
    simpa using hd c hc
  rw [parseNat, hne, hall]
  simp only [Bool.not_false, Bool.and_self, if_true]
  congr 1
  have := Nat.ofDigitChars_ten_toDigits (n := n)
  rwa [Nat.ofDigitChars_eq_foldl] at this

/-- C47: a key `…windowed[n]:…` declares the window length `n`, in decimal; what is before has no colon and no bracket. The same
without the part from the colon on. -/
theorem C47_declared_length (d n : Nat) (before : String) (h1 : ':' ∉ before.toList) (h2 : '[' ∉ before.toList) (rest : String) :
    Logs.windowLength d (before ++ "windowed[" ++ toString n ++ "]:" ++ rest) = .ok n ∧
      Logs.windowLength d (before ++ "windowed[" ++ toString n ++ "]") = .ok n := by
  have hdig : ∀ c ∈ Nat.toDigits 10 n, c.isDigit = true := fun c hc => Nat.isDigit_of_mem_toDigits (by decide) (by decide) hc
  have hn : ∀ c, c.isDigit = false → c ∉ Nat.toDigits 10 n := fun c hc hm => by simp [hdig c hm] at hc
  have hs : (toString n).toList = Nat.toDigits 10 n := by simp [toString, Nat.repr]
  have e2 : "windowed[".toList = "windowed".toList ++ ['['] := rfl
  have e3 : "]:".toList = [']', ':'] := rfl
  have e4 : "]".toList = [']'] := rfl
  have hp : splitChar '[' (before.toList ++ "windowed[".toList ++ Nat.toDigits 10 n ++ [']']) =
      [before.toList ++ "windowed".toList, Nat.toDigits 10 n ++ [']']] := by
    have : before.toList ++ "windowed[".toList ++ Nat.toDigits 10 n ++ [']'] =
        (before.toList ++ "windowed".toList) ++ '[' :: (Nat.toDigits 10 n ++ [']']) := by
      rw [e2]; simp
    rw [this, splitChar_append, splitChar_none]
    · rw [List.mem_append, not_or]
      exact ⟨hn _ (by decide), by decide⟩
    · rw [List.mem_append, not_or]
      exact ⟨h2, by decide⟩
  have hcol : ':' ∉ before.toList ++ "windowed[".toList ++ Nat.toDigits 10 n ++ [']'] := by
    simp only [List.mem_append, not_or]
    exact ⟨⟨⟨h1, by decide⟩, hn _ (by decide)⟩, by decide⟩
  have hsub : ∀ r, hasSub "windowed[".toList (before.toList ++ "windowed[".toList ++ Nat.toDigits 10 n ++ r) = true := by
    intro r
    rw [List.append_assoc]
    exact hasSub_append _ _ _
  constructor
  · unfold Logs.windowLength
    simp only [String.toList_append, hs, e3]
    have : before.toList ++ "windowed[".toList ++ Nat.toDigits 10 n ++ [']', ':'] ++ rest.toList =
        (before.toList ++ "windowed[".toList ++ Nat.toDigits 10 n ++ [']']) ++ ':' :: rest.toList := by simp
    rw [if_pos (by rw [List.append_assoc]; exact hsub _), this, splitChar_append _ _ _ hcol]
    simp only [hp, List.dropLast_concat]
    exact parseNat_digits n
  · unfold Logs.windowLength
    simp only [String.toList_append, hs, e4]
    rw [if_pos (hsub _), splitChar_none _ _ hcol]
    simp only [hp, List.dropLast_concat]
    exact parseNat_digits n

/-- C47: a colon before `windowed[`, without a bracket before it, is an `IndexError`: such a key cannot be logged. -/
theorem C47_colon_first (d : Nat) (before rest : String) (h1 : ':' ∉ before.toList) (h2 : '[' ∉ before.toList) :
    Logs.windowLength d (before ++ ":windowed[" ++ rest) = .error .indexError := by
  have e : ":windowed[".toList = [':'] ++ "windowed[".toList := rfl
  unfold Logs.windowLength
  simp only [String.toList_append, e]
  rw [if_pos]
  · have : before.toList ++ ([':'] ++ "windowed[".toList) ++ rest.toList = before.toList ++ ':' :: ("windowed[".toList ++ rest.toList) := by
      simp
    rw [this, splitChar_append _ _ _ h1]
    simp only [splitChar_none _ _ h2]
  · rw [← List.append_assoc]
    exact hasSub_append _ _ _

example : Logs.windowLength 250 "windowed[100]:loss/q" = .ok 100 ∧ Logs.windowLength 250 "a/windowed[007]" = .ok 7 ∧
    Logs.windowLength 250 "windowed[]:x" = .error .valueError ∧ Logs.windowLength 250 "loss/q" = .ok 250 ∧
    Logs.windowLength 250 "a:windowed[7]" = .error .indexError := by decide +kernel

/-- C47: a call for a key whose length can be read never fails. -/
theorem C47_never_fails {d n : Nat} {key : String} (hn : Logs.windowLength d key = .ok n)
    (calls : List (String × LogVal)) (v : LogVal) :
    ((logAll calls (Logs.new d)).logWindowed key v).2 = .ok () := by
  have hd : ∀ l : Logs, (logAll calls l).defaultLength = l.defaultLength := by
    intro l
    unfold logAll
    induction calls generalizing l with
    | nil => rfl
    | cons c calls ih => rw [List.foldl_cons, ih]; exact (logWindowed_frame l c.1 c.2).1
  unfold Logs.logWindowed
  by_cases hk : ∃ c ∈ calls, c.1 = key
  · obtain ⟨h1, h2⟩ := C47_windows hn calls hk
    rw [if_pos (by rw [Dict.contains_iff]; exact Dict.mem_keys_of_get? h1), pushWindow_eq h1 h2]
  · split
    · rename_i hc
      exfalso
      have : ∀ (calls : List (String × LogVal)) (l : Logs), (∀ c ∈ calls, c.1 ≠ key) →
          (logAll calls l).windowed.get? key = l.windowed.get? key := by
        intro calls
        induction calls with
        | nil => intro l _; rfl
        | cons c calls ih =>
          intro l h
          show (logAll calls _).windowed.get? key = _
          rw [ih _ (fun c hc => h c (by simp [hc]))]
          exact ((logWindowed_frame l c.1 c.2).2 key (Ne.symm (h c (by simp)))).1
      have h0 := this calls (Logs.new d) (fun c hc he => hk ⟨c, hc, he⟩)
      rw [Dict.contains, h0] at hc
      simp [Logs.new, Dict.get?] at hc
    · rw [hd (Logs.new d)]
      simp only [Logs.new, hn]
      rw [pushWindow_eq (w := ⟨n, []⟩) (c := 0) (by simp) (by simp)]

example : Logs.windowLength 250 "windowed[100]:loss/q" = .ok 100 := by decide +kernel
example : Logs.windowLength 250 "loss/q" = .ok 250 := by decide +kernel
example := C47_windows (d := 250) (n := 3) (key := "windowed[3]:a/b") (by decide +kernel)
  [("windowed[3]:a/b", .many [1, 2]), ("c", .one 9), ("windowed[3]:a/b", .one 3), ("windowed[3]:a/b", .many [4, 5])]
  ⟨("windowed[3]:a/b", .one 3), by simp, rfl⟩
example : (logAll [("windowed[3]:a/b", .many [1, 2]), ("c", .one 9), ("windowed[3]:a/b", .one 3),
    ("windowed[3]:a/b", .many [4, 5])] (Logs.new 250)).windowed.get? "windowed[3]:a/b" = some ⟨3, [3, 4, 5]⟩ := by
  decide +kernel

/-! ## C48: false for the code -/

/-- C48 does not hold: for every object with a windowed metric, loading its saved state into a fresh object
succeeds and restores no windowed metric at all. -/
theorem C48_false (l : Logs) (d : Nat) (hne : l.windowed ≠ []) :
    ∃ l', (Logs.new d).loadStateDict l.stateDict = (l', .ok ()) ∧ l'.windowed = [] ∧ l'.windowed ≠ l.windowed :=
  ⟨_, rfl, rfl, fun h => hne h.symm⟩

/-- C48 does not hold for an object in use either: with a windowed metric of its own, loading raises, whatever
is loaded. -/
theorem C48_false_used (l : Logs) (s : Logs.Saved) (hne : l.windowed ≠ []) :
    ∃ l' e, l.loadStateDict s = (l', .error e) ∧ (e = .indexError ∨ e = .typeError) := by
  unfold Logs.loadStateDict
  simp only
  cases hw : l.windowed with
  | nil => exact absurd hw hne
  | cons kw rest =>
    obtain ⟨k, w⟩ := kw
    unfold Logs.rebuildAll Logs.rebuild
    cases w.vals with
    | nil => exact ⟨_, _, rfl, Or.inl rfl⟩
    | cons x xs => cases xs with
      | nil => exact ⟨_, _, rfl, Or.inl rfl⟩
      | cons y ys => exact ⟨_, _, rfl, Or.inr rfl⟩

/-- C48: the cumulative value is loaded, but as the window is missing the next logged value starts it from zero
again. -/
theorem C48_cumulative_lost (l : Logs) {d n : Nat} {key : String} (hn : Logs.windowLength d key = .ok n) (x : Rat)
    {l' : Logs} (hl : (Logs.new d).loadStateDict l.stateDict = (l', .ok ())) :
    (l'.logWindowed key (.one x)).1.cumulative.get? key = some x := by
  have : l' = { Logs.new d with scalar := l.scalar, hist := l.hist, windowed := [], cumulative := l.cumulative } := by
    injection hl with h _; exact h.symm
  subst this
  unfold Logs.logWindowed
  rw [if_neg (by simp [Dict.contains, Dict.get?])]
  simp only [Logs.new, hn]
  rw [pushWindow_eq (w := ⟨n, []⟩) (c := 0) (by simp) (by simp)]
  simp

/-- C48, what does hold: scalars, histograms and cumulative values are restored in a fresh object. (Missing: the
windowed metrics.) -/
theorem C48_restores_rest_partial (l : Logs) (d : Nat) :
    ∃ l', (Logs.new d).loadStateDict l.stateDict = (l', .ok ()) ∧
      l'.scalar = l.scalar ∧ l'.hist = l.hist ∧ l'.cumulative = l.cumulative :=
  ⟨_, rfl, rfl, rfl, rfl⟩

example := C48_false (logAll [("a", .one 1)] (Logs.new 250)) 250 (by decide +kernel)
example : ((Logs.new 250).loadStateDict (logAll [("a", .one 1), ("a", .one 2)] (Logs.new 250)).stateDict).1.cumulative
    = [("a", 3)] := by decide +kernel
example := C48_false_used (logAll [("a", .one 1)] (Logs.new 250)) (Logs.new 250).stateDict (by decide +kernel)

end Verif.Props
