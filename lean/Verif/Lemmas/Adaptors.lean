import Verif.Model.Adaptors
import Verif.Lemmas.Dict
import Verif.Lemmas.List

set_option linter.unusedSimpArgs false

namespace Verif

open Dict

variable {V : Type u}

theorem ofPairs_of_nodup {κ : Type} {α : Type v} [DecidableEq κ] {l : List (κ × α)}
    (h : (l.map Prod.fst).Nodup) : Dict.ofPairs l = l := by
  have key : ∀ (l d : List (κ × α)), ((d ++ l).map Prod.fst).Nodup → Dict.update d l = d ++ l := by
    intro l
    induction l with
    | nil => intro d _; simp [Dict.update]
    | cons p l ih =>
      intro d hd
      have hp : p.1 ∉ Dict.keys d := by
        intro hmem
        rw [List.map_append, List.nodup_append] at hd
        exact hd.2.2 p.1 hmem p.1 (by simp) rfl
      have : Dict.update d (p :: l) = Dict.update (Dict.set d p.1 p.2) l := rfl
      rw [this, set_of_not_mem hp, ih _ (by simpa using hd)]
      simp
  simpa [Dict.ofPairs] using key l [] (by simpa using h)

namespace Adaptors

/-- The keys taken out by `DictObsAdaptor`. -/
def taken (withNext : Bool) (keyMap : List (String × String)) : List String :=
  keyMap.flatMap fun p => if withNext then [p.1, "next_" ++ p.1] else [p.1]

/-- The rows under a key (if it is a tensor). -/
def colOf (b : Batch V) (key : String) : List (Cell V) :=
  match b.get? key with
  | some (.col rows) => rows
  | _ => []

theorem popCol_ok {b : Batch V} {key : String} {rows : List (Cell V)}
    (h : b.get? key = some (.col rows)) : popCol b key = .ok (b.erase key, rows) := by
  simp [popCol, h]

theorem dictObsLoop_ok (withNext : Bool) (keyMap : List (String × String)) (b : Batch V)
    (o x : Dict String (List (Cell V))) (hb : b.keys.Nodup)
    (hk : (taken withNext keyMap).Nodup)
    (hin : ∀ k ∈ taken withNext keyMap, ∃ rows, b.get? k = some (.col rows))
    (ho : (o.keys ++ keyMap.map Prod.snd).Nodup) (hx : (x.keys ++ keyMap.map Prod.snd).Nodup) :
    ∃ b', dictObsLoop withNext keyMap b o x = .ok (b',
        o ++ keyMap.map (fun p => (p.2, colOf b p.1)),
        x ++ if withNext then keyMap.map (fun p => (p.2, colOf b ("next_" ++ p.1))) else []) ∧
      b'.keys.Nodup ∧
      ∀ name, b'.get? name = if name ∈ taken withNext keyMap then none else b.get? name := by
  induction keyMap generalizing b o x with
  | nil => exact ⟨b, by simp [dictObsLoop], hb, by simp [taken]⟩
  | cons p keyMap ih =>
    obtain ⟨key, ok⟩ := p
    cases withNext with
    | false =>
      have ht : taken false ((key, ok) :: keyMap) = key :: taken false keyMap := by simp [taken]
      rw [ht] at hk hin ⊢
      simp only [List.nodup_cons] at hk
      obtain ⟨rows, hr⟩ := hin key (by simp)
      have hok : ok ∉ Dict.keys o := by
        intro hm
        rw [List.nodup_append] at ho
        exact ho.2.2 ok hm ok (by simp) rfl
      have hget : ∀ j, j ≠ key → (b.erase key).get? j = b.get? j := by
        intro j hj
        rw [get?_erase hb, if_neg (Ne.symm hj)]
      obtain ⟨b', h1, h2, h3⟩ := ih (b.erase key) (o ++ [(ok, rows)]) x (nodup_erase hb) hk.2
        (by
          intro k hkm
          rw [hget k (fun e => hk.1 (e ▸ hkm))]
          exact hin k (by simp [hkm]))
        (by simpa [List.append_assoc] using ho)
        (by
          rw [List.nodup_append] at hx ⊢
          simp only [List.map_cons, List.nodup_cons] at hx
          exact ⟨hx.1, hx.2.1.2, fun a ha c hc => hx.2.2 a ha c (by simp [hc])⟩)
      refine ⟨b', ?_, h2, ?_⟩
      · unfold dictObsLoop
        simp only [popCol_ok hr, bind, Except.bind, Bool.false_eq_true, if_false, set_of_not_mem hok, h1,
          List.map_cons, List.append_assoc, List.singleton_append, Except.ok.injEq, Prod.mk.injEq, true_and,
          List.append_cancel_left_eq, List.cons.injEq]
        refine ⟨⟨by simp [colOf, hr], ?_⟩, trivial⟩
        apply List.map_congr_left
        intro p hp
        have : p.1 ≠ key := fun e => hk.1 (by
          rw [← e]; exact List.mem_flatMap.2 ⟨p, hp, by simp⟩)
        simp only [colOf, hget p.1 this]
      · intro name
        rw [h3]
        by_cases hn : name = key
        · subst hn
          simp [hk.1, get?_erase hb]
        · simp [hn, hget name hn]
    | true =>
      have ht : taken true ((key, ok) :: keyMap) = key :: ("next_" ++ key) :: taken true keyMap := by
        simp [taken]
      rw [ht] at hk hin ⊢
      simp only [List.nodup_cons, List.mem_cons, not_or] at hk
      obtain ⟨rows, hr⟩ := hin key (by simp)
      obtain ⟨rows', hr'⟩ := hin ("next_" ++ key) (by simp)
      have hok : ok ∉ Dict.keys o := by
        intro hm
        rw [List.nodup_append] at ho
        exact ho.2.2 ok hm ok (by simp) rfl
      have hokx : ok ∉ Dict.keys x := by
        intro hm
        rw [List.nodup_append] at hx
        exact hx.2.2 ok hm ok (by simp) rfl
      have hnk : "next_" ++ key ≠ key := fun e => hk.1.1 e.symm
      have hr'' : (b.erase key).get? ("next_" ++ key) = some (.col rows') := by
        rw [get?_erase hb, if_neg (Ne.symm hnk), hr']
      have hget : ∀ j, j ≠ key → j ≠ "next_" ++ key →
          ((b.erase key).erase ("next_" ++ key)).get? j = b.get? j := by
        intro j hj hj'
        rw [get?_erase (nodup_erase hb), if_neg (Ne.symm hj'), get?_erase hb, if_neg (Ne.symm hj)]
      obtain ⟨b', h1, h2, h3⟩ := ih ((b.erase key).erase ("next_" ++ key)) (o ++ [(ok, rows)])
        (x ++ [(ok, rows')]) (nodup_erase (nodup_erase hb)) hk.2.2
        (by
          intro k hkm
          rw [hget k (fun e => hk.1.2 (e ▸ hkm)) (fun e => hk.2.1 (e ▸ hkm))]
          exact hin k (by simp [hkm]))
        (by simpa [List.append_assoc] using ho)
        (by simpa [List.append_assoc] using hx)
      refine ⟨b', ?_, h2, ?_⟩
      · unfold dictObsLoop
        simp only [popCol_ok hr, popCol_ok hr'', bind, Except.bind, if_true, set_of_not_mem hok,
          set_of_not_mem hokx, h1, List.map_cons, List.append_assoc, List.singleton_append, Except.ok.injEq,
          Prod.mk.injEq, true_and, List.append_cancel_left_eq, List.cons.injEq]
        have hmem : ∀ p ∈ keyMap, p.1 ∈ taken true keyMap ∧ "next_" ++ p.1 ∈ taken true keyMap :=
          fun p hp => ⟨List.mem_flatMap.2 ⟨p, hp, by simp⟩, List.mem_flatMap.2 ⟨p, hp, by simp⟩⟩
        refine ⟨⟨by simp [colOf, hr], ?_⟩, by simp [colOf, hr'], ?_⟩
        · apply List.map_congr_left
          intro p hp
          obtain ⟨m1, _⟩ := hmem p hp
          simp only [colOf, hget p.1 (fun e => hk.1.2 (e ▸ m1)) (fun e => hk.2.1 (e ▸ m1))]
        · apply List.map_congr_left
          intro p hp
          obtain ⟨_, m1⟩ := hmem p hp
          simp only [colOf, hget ("next_" ++ p.1) (fun e => hk.1.2 (e ▸ m1)) (fun e => hk.2.1 (e ▸ m1))]
      · intro name
        rw [h3]
        by_cases hn : name = key
        · subst hn
          simp [hk.1.2, get?_erase (nodup_erase hb), get?_erase hb]
        · by_cases hn' : name = "next_" ++ key
          · subst hn'
            simp [hk.2.1, get?_erase (nodup_erase hb)]
          · simp [hn, hn', hget name hn hn']

theorem lastOfGroups_ok {rows : List (Cell V)} {n count : Nat} (hn : 0 < n)
    (h : rows.length = count * n) :
    ∃ last, lastOfGroups rows n = some last ∧ last.length = count ∧
      ∀ k, k < count → last[k]? = rows[k * n + (n - 1)]? := by
  have hd : rows.length / n = count := by rw [h]; exact Nat.mul_div_cancel _ hn
  have hm : rows.length % n = 0 := by rw [h]; exact Nat.mul_mod_left _ _
  have hlt : ∀ k, k < count → k * n + (n - 1) < rows.length := by
    intro k hk
    have : (k + 1) * n ≤ count * n := Nat.mul_le_mul_right n hk
    rw [Nat.succ_mul] at this
    omega
  refine ⟨_, by rw [lastOfGroups, if_neg (by omega)], ?_⟩
  rw [hd]
  clear hd hm h
  have key : ∀ m, m ≤ count → ((List.range m).filterMap fun k => rows[k * n + (n - 1)]?).length = m ∧
      ∀ k, k < m → ((List.range m).filterMap fun k => rows[k * n + (n - 1)]?)[k]? = rows[k * n + (n - 1)]? := by
    intro m hm
    induction m with
    | zero => simp
    | succ m ih =>
      obtain ⟨h1, h2⟩ := ih (by omega)
      have hs : rows[m * n + (n - 1)]? = some (rows[m * n + (n - 1)]'(hlt m (by omega))) :=
        List.getElem?_eq_getElem _
      have hstep : ((List.range (m + 1)).filterMap fun k => rows[k * n + (n - 1)]?)
          = ((List.range m).filterMap fun k => rows[k * n + (n - 1)]?) ++ [rows[m * n + (n - 1)]'(hlt m (by omega))] := by
        rw [List.range_succ, List.filterMap_append]
        congr 1
        simp [hs]
      rw [hstep]
      refine ⟨by rw [List.length_append, h1]; rfl, fun k hk => ?_⟩
      by_cases hkm : k < m
      · rw [List.getElem?_append_left (by omega), h2 k hkm]
      · have : k = m := by omega
        subst this
        rw [List.getElem?_append_right (by omega), h1, Nat.sub_self, hs]
        rfl
  exact key count (Nat.le_refl _)

theorem whereOne_ok (one : V → Bool) {a b : List (Cell V)} (h : a.length = b.length) :
    ∃ r, whereOne one a b = .ok r ∧ r.length = a.length ∧
      ∀ (k : Nat) x y, a[k]? = some x → b[k]? = some y → r[k]? = some (if isOne one x then x else y) := by
  refine ⟨_, by unfold whereOne; rw [if_pos h], by simp [h], ?_⟩
  intro k x y hx hy
  simp [List.getElem?_zipWith, hx, hy]

end Adaptors

end Verif
