import Verif.Props.UniformRun
import Verif.Props.Starve

/-!
# C169: with random ejection old episodes go
-/

namespace Verif.Props

namespace Survive

open Verif Verif.Spec MeasureTheory UniformRun
open Verif.UniformRun (Gen Event Outcome run)
open Verif.Props.RealDraws (unit generators windowLaw)
open Verif.Props.EjectLaw (oneByOne amount)
open scoped ENNReal Classical

variable {V : Type}

/-! ## Specification -/

/-- For how many of the sequences that were added others had to go -/
def ejecting : List Outcome → Nat
  | [] => 0
  | .added [] :: out => ejecting out
  | .added (_ :: _) :: out => ejecting out + 1
  | .drawn _ :: out => ejecting out

/-! ## What is ejected -/

/-- What may be picked, of `R`, until `c` are free -/
structure Picks (W : Int → Nat) (R : List Int) (c : Int) (ids : List Int) : Prop where
  distinct : ids.Nodup
  sub : ∀ x ∈ ids, x ∈ R
  enough : c ≤ ((ids.map W).sum : ℕ)
  needed : ∀ pre last, ids = pre ++ [last] → (((pre.map W).sum : ℕ) : Int) < c

theorem Picks.tail {W : Int → Nat} {R : List Int} (hR : R.Nodup) {c : Int} {x : Int} {ids : List Int} (h : Picks W R c (x :: ids)) :
    x ∈ R ∧ Picks W (R.erase x) (c - W x) ids := by
  obtain ⟨h1, h2, h3, h4⟩ := h
  rw [List.nodup_cons] at h1
  refine ⟨h2 x (by simp), h1.2, fun y hy => ?_, ?_, fun pre last he => ?_⟩
  · exact (List.Nodup.mem_erase_iff hR).2 ⟨fun e => h1.1 (e ▸ hy), h2 y (by simp [hy])⟩
  · simp only [List.map_cons, List.sum_cons] at h3
    push_cast at h3 ⊢
    linarith
  · have := h4 (x :: pre) last (by rw [he]; rfl)
    simp only [List.map_cons, List.sum_cons] at this
    push_cast at this ⊢
    linarith

theorem picks_nothing {W : Int → Nat} {R : List Int} {c : Int} (hc : c ≤ 0) {ids : List Int} (h : Picks W R c ids) : ids = [] := by
  rcases List.eq_nil_or_concat ids with h' | ⟨pre, last, h'⟩
  · exact h'
  · have := h.needed pre last (by simpa using h')
    have h0 : (0 : Int) ≤ (((pre.map W).sum : ℕ) : Int) := by positivity
    omega

theorem sum_shares (W : Int → Nat) (R : List Int) : (R.map fun x => ENNReal.ofReal ((W x : ℝ) / ((R.map W).sum : ℕ))).sum ≤ 1 := by
  have h : ∀ (L : List Int) (T : ℝ), 0 ≤ T → (L.map fun x => ENNReal.ofReal ((W x : ℝ) / T)).sum = ENNReal.ofReal (((L.map W).sum : ℕ) / T) := by
    intro L T hT
    induction L with
    | nil => simp
    | cons x L ih =>
      rw [List.map_cons, List.sum_cons, ih, ← ENNReal.ofReal_add (by positivity) (by positivity), List.map_cons, List.sum_cons]
      congr 1
      push_cast
      ring
  rw [h R _ (by positivity), ENNReal.ofReal_le_one]
  exact div_self_le_one _

theorem picks_sum (W : Int → Nat) : ∀ (k : Nat) (R : List Int), R.length = k → R.Nodup → ∀ (c : Int) (P : Int → Prop),
    (∑' ids, if Picks W R c ids ∧ ∀ x ∈ ids, P x then ENNReal.ofReal (oneByOne (fun x => (W x : ℝ)) ((R.map W).sum : ℕ) ids) else 0) ≤ 1 ∧
    (0 < c → (∑' ids, if Picks W R c ids ∧ ∀ x ∈ ids, P x then ENNReal.ofReal (oneByOne (fun x => (W x : ℝ)) ((R.map W).sum : ℕ) ids) else 0) ≤
      ((R.filter fun x => P x).map fun x => ENNReal.ofReal ((W x : ℝ) / ((R.map W).sum : ℕ))).sum) := by
  intro k
  induction k using Nat.strong_induction_on with
  | _ k ih =>
    intro R hk hR c P
    have hstep : 0 < c → (∑' ids, if Picks W R c ids ∧ ∀ x ∈ ids, P x then ENNReal.ofReal (oneByOne (fun x => (W x : ℝ)) ((R.map W).sum : ℕ) ids) else 0) ≤
        ((R.filter fun x => P x).map fun x => ENNReal.ofReal ((W x : ℝ) / ((R.map W).sum : ℕ))).sum := by
      intro hc
      rw [Starve.tsum_cons _ (if_neg (by rintro ⟨h, -⟩; have := h.enough; simp at this; omega))]
      have hle : ∀ x : Int, (∑' ids : List Int, if Picks W R c (x :: ids) ∧ ∀ y ∈ x :: ids, P y then
          ENNReal.ofReal (oneByOne (fun x => (W x : ℝ)) ((R.map W).sum : ℕ) (x :: ids)) else 0) ≤
          if x ∈ R ∧ P x then ENNReal.ofReal ((W x : ℝ) / ((R.map W).sum : ℕ)) else 0 := by
        intro x
        by_cases hx : x ∈ R ∧ P x
        · rw [if_pos hx]
          have hlt : (R.erase x).length < k := by
            rw [List.length_erase_of_mem hx.1]
            have := List.length_pos_of_mem hx.1
            omega
          have hi := (ih _ hlt (R.erase x) rfl (hR.erase x) (c - W x) P).1
          refine le_trans ?_ (le_trans (mul_le_mul_right hi (ENNReal.ofReal ((W x : ℝ) / ((R.map W).sum : ℕ)))) (by rw [mul_one]))
          rw [← ENNReal.tsum_mul_left]
          refine ENNReal.tsum_le_tsum fun ids => ?_
          by_cases hp : Picks W R c (x :: ids) ∧ ∀ y ∈ x :: ids, P y
          · rw [if_pos hp, if_pos ⟨(hp.1.tail hR).2, fun y hy => hp.2 y (by simp [hy])⟩, oneByOne, ENNReal.ofReal_mul (by positivity)]
            have hsum : (((R.map W).sum : ℕ) : ℝ) - W x = (((R.erase x).map W).sum : ℕ) := by
              have := ((List.perm_cons_erase hx.1).map W).sum_eq
              rw [this]
              simp
            rw [hsum]
          · rw [if_neg hp]; exact zero_le
        · rw [if_neg hx]
          refine le_of_eq (ENNReal.tsum_eq_zero.2 fun ids => if_neg ?_)
          rintro ⟨h1, h2⟩
          exact hx ⟨(h1.tail hR).1, h2 x (by simp)⟩
      refine le_trans (ENNReal.tsum_le_tsum hle) ?_
      refine le_trans (Starve.tsum_le_list _ (R.filter fun x => P x) fun x hx => if_neg fun h => hx (by simpa using h)) (le_of_eq ?_)
      congr 1
      refine List.map_congr_left fun x hx => ?_
      rw [if_pos (by simpa using hx)]
    refine ⟨?_, hstep⟩
    by_cases hc : 0 < c
    · refine (hstep hc).trans (le_trans ?_ (sum_shares W R))
      refine List.Sublist.sum_le_sum ((List.filter_sublist).map _) fun _ _ => zero_le
    · rw [tsum_eq_single [] fun ids hne => if_neg fun h => hne (picks_nothing (not_lt.1 hc) h.1)]
      split
      · simp [oneByOne]
      · exact zero_le

/-- The length of a sequence -/
def len (l : Dict Int Nat) (id : Int) : Nat := match l.get? id with | some n => n | none => 0

theorem amount_eq (l : Dict Int Nat) : amount l = fun id => (len l id : ℝ) := by
  funext id
  unfold amount len
  cases l.get? id <;> simp

theorem total_eq {l : Dict Int Nat} (hn : l.keys.Nodup) : (l.keys.map (len l)).sum = trackedTotal l := by
  unfold trackedTotal Dict.keys
  rw [List.map_map]
  congr 1
  refine List.map_congr_left fun p hp => ?_
  simp only [Function.comp, len, Dict.get?_of_mem hn (show (p.1, p.2) ∈ l from hp)]

theorem picks_of {l : Dict Int Nat} (hn : l.keys.Nodup) {c : Int} {ids : List Int} (h : Frees l c ids) : Picks (len l) l.keys c ids := by
  obtain ⟨h1, h2, h3, h4⟩ := h
  refine ⟨h1, fun x hx => ?_, ?_, fun pre last he => ?_⟩
  · obtain ⟨n, hn⟩ := h2 x hx
    exact Dict.mem_keys_of_mem hn
  · rw [pickedTotal_eq hn h1] at h3
    exact h3
  · have := h4 pre last he
    rw [pickedTotal_eq hn (by rw [he] at h1; exact (List.nodup_append.1 h1).1)] at this
    exact this

theorem eject_le {l : Dict Int Nat} (hn : l.keys.Nodup) (c : Int) (P : Int → Prop) (ids : List Int) :
    (if ∀ x ∈ ids, P x then ejectLaw l c ids else 0) ≤ if Picks (len l) l.keys c ids ∧ ∀ x ∈ ids, P x then
      ENNReal.ofReal (oneByOne (fun x => (len l x : ℝ)) ((l.keys.map (len l)).sum : ℕ) ids) else 0 := by
  by_cases hp : ∀ x ∈ ids, P x
  · rw [if_pos hp, ejectLaw]
    by_cases hf : Frees l c ids
    · rw [if_pos hf, if_pos ⟨picks_of hn hf, hp⟩, total_eq hn, amount_eq]
    · rw [if_neg hf]; exact zero_le
  · rw [if_neg hp]; exact zero_le

theorem eject_one {l : Dict Int Nat} (hn : l.keys.Nodup) (c : Int) : ∑' ids, ejectLaw l c ids ≤ 1 := by
  refine le_trans (ENNReal.tsum_le_tsum fun ids => ?_) (picks_sum (len l) _ l.keys rfl hn c fun _ => True).1
  have := eject_le hn c (fun _ => True) ids
  simpa using this

theorem eject_without {l : Dict Int Nat} (hn : l.keys.Nodup) {c : Int} (hc : 0 < c) {id : Int} {n : Nat} (hid : (id, n) ∈ l) {cap : ℝ}
    (hcap : (trackedTotal l : ℝ) ≤ cap) (hpos : 0 < n) :
    ∑' ids, (if id ∈ ids then 0 else ejectLaw l c ids) ≤ ENNReal.ofReal (1 - n / cap) := by
  have hlen : len l id = n := by rw [len, Dict.get?_of_mem hn hid]
  refine le_trans (ENNReal.tsum_le_tsum fun ids => ?_) (((picks_sum (len l) _ l.keys rfl hn c fun x => x ≠ id).2 hc).trans ?_)
  · refine le_trans ?_ (eject_le hn c (fun x => x ≠ id) ids)
    by_cases h : id ∈ ids
    · rw [if_pos h]; exact zero_le
    · rw [if_neg h, if_pos (show ∀ x ∈ ids, x ≠ id from fun x hx e => h (e ▸ hx))]
  · have hperm : (l.keys.map fun x => ENNReal.ofReal ((len l x : ℝ) / ((l.keys.map (len l)).sum : ℕ))).sum =
        ENNReal.ofReal ((len l id : ℝ) / ((l.keys.map (len l)).sum : ℕ)) +
        ((l.keys.filter fun x => x ≠ id).map fun x => ENNReal.ofReal ((len l x : ℝ) / ((l.keys.map (len l)).sum : ℕ))).sum := by
      have hmem := Dict.mem_keys_of_mem hid
      rw [((List.perm_cons_erase hmem).map _).sum_eq, List.map_cons, List.sum_cons, hn.erase_eq_filter]
      congr 3
      refine List.filter_congr fun x _ => ?_
      by_cases hx : x = id <;> simp [hx]
    have h1 := sum_shares (len l) l.keys
    rw [hperm, hlen, total_eq hn] at h1
    rw [total_eq hn]
    have hT : (n : ℝ) ≤ trackedTotal l := by
      have : n ≤ trackedTotal l := by
        rw [← total_eq hn, ← hlen]
        exact List.single_le_sum (by simp) _ (List.mem_map_of_mem (Dict.mem_keys_of_mem hid))
      exact_mod_cast this
    have hn0 : (0 : ℝ) < n := by exact_mod_cast hpos
    have h2 : ((l.keys.filter fun x => x ≠ id).map fun x => ENNReal.ofReal ((len l x : ℝ) / (trackedTotal l : ℕ))).sum ≤
        1 - ENNReal.ofReal ((n : ℝ) / (trackedTotal l : ℕ)) := ENNReal.le_sub_of_add_le_left ENNReal.ofReal_ne_top h1
    refine le_trans (le_of_eq (by congr!)) (h2.trans ?_)
    rw [← ENNReal.ofReal_one, ← ENNReal.ofReal_sub _ (by positivity)]
    refine ENNReal.ofReal_le_ofReal ?_
    have := div_le_div_of_nonneg_left hn0.le (by linarith : (0 : ℝ) < trackedTotal l) hcap
    linarith

theorem batch_one {tc : Nat} {l : Dict Int Nat} (hf : Starve.Fine tc l) (hne : l ≠ []) (count : Nat) :
    ∑' b : List SamplePoint, (if b.length = count then (b.map fun p => ENNReal.ofReal (windowLaw l tc p)).prod else 0) ≤ 1 := by
  rw [Starve.tsum_pow]
  refine pow_le_one₀ (zero_le) ?_
  have h := Starve.window_one (alpha := 0) (seen := fun _ => 0) hf hne
  refine le_trans (le_of_eq (tsum_congr fun p => ?_)) h
  congr 1
  unfold windowLaw CoverageRun.windowLaw
  have : ∀ l : Dict Int Nat, (l.map (CoverageRun.share 0 fun _ => 0)).sum = (trackedTotal l : ℝ) := by
    intro l
    unfold trackedTotal
    induction l with
    | nil => simp
    | cons p l ih =>
      rw [List.map_cons, List.sum_cons, ih]
      simp [CoverageRun.share]
  cases l.get? p.1 with
  | none => rfl
  | some n => simp [this, CoverageRun.share]

/-! ## Histories -/

theorem tsum_added (G : Outcome → ℝ≥0∞) (h : ∀ b, G (.drawn b) = 0) : ∑' o, G o = ∑' ids, G (.added ids) := by
  have hinj : Function.Injective Outcome.added := fun a b h => by injection h
  refine (hinj.tsum_eq ?_).symm
  intro o ho
  cases o with
  | added ids => exact ⟨ids, rfl⟩
  | drawn b => exact absurd (h b) ho

theorem tsum_drawn (G : Outcome → ℝ≥0∞) (h : ∀ ids, G (.added ids) = 0) : ∑' o, G o = ∑' b, G (.drawn b) := by
  have hinj : Function.Injective Outcome.drawn := fun a b h => by injection h
  refine (hinj.tsum_eq ?_).symm
  intro o ho
  cases o with
  | drawn b => exact ⟨b, rfl⟩
  | added ids => exact absurd (h ids) ho

section
variable {lk : String} {maxlen : Int} {tc : Nat}

/-- The probability of outcomes -/
noncomputable def sumOver (Q : List Outcome → Prop) (f : List Outcome → ℝ≥0∞) : ℝ≥0∞ := ∑' out, if Q out then f out else 0

theorem sumOver_mono {Q Q' : List Outcome → Prop} {f : List Outcome → ℝ≥0∞} (h : ∀ out, Q out → Q' out) : sumOver Q f ≤ sumOver Q' f := by
  refine ENNReal.tsum_le_tsum fun out => ?_
  by_cases hq : Q out
  · rw [if_pos hq, if_pos (h out hq)]
  · rw [if_neg hq]; exact zero_le

/-- Of a step the first part and the rest -/
theorem sum_batch {es : List (Event V)} {l : Dict Int Nat} (hf : Starve.Fine tc l) (hne : l ≠ []) (count : Nat) (Q : List Outcome → Prop) {x : ℝ≥0∞}
    (hx : ∀ b, sumOver (fun out => Q (.drawn b :: out)) (law lk maxlen tc es l) ≤ x) :
    sumOver (fun out => Q out) (law lk maxlen tc (.batch count :: es) l) ≤ x := by
  unfold sumOver at *
  rw [Starve.tsum_cons _ (by simp [law]), tsum_drawn _ fun ids => by simp [law]]
  refine le_trans (ENNReal.tsum_le_tsum (g := fun b : List SamplePoint =>
    (if b.length = count then (b.map fun p => ENNReal.ofReal (windowLaw l tc p)).prod else 0) * x) fun b => ?_) ?_
  · refine le_trans (le_of_eq ?_) (mul_le_mul_right (hx b) _)
    rw [← ENNReal.tsum_mul_left]
    refine tsum_congr fun out => ?_
    by_cases hq : Q (.drawn b :: out)
    · rw [if_pos hq, if_pos hq, law]
    · rw [if_neg hq, if_neg hq, mul_zero]
  · rw [ENNReal.tsum_mul_right]
    exact le_trans (mul_le_mul_left (batch_one hf hne count) _) (by rw [one_mul])

theorem sum_add {es : List (Event V)} {l : Dict Int Nat} (id : Int) (seq : Seqn V) (Q : List Outcome → Prop) :
    sumOver (fun out => Q out) (law lk maxlen tc (.add id seq :: es) l) =
      ∑' ids, ejectLaw l (trackedTotal l + (rowsOf seq lk).length - maxlen) ids *
        sumOver (fun out => Q (.added ids :: out)) (law lk maxlen tc es (replaced l ids id (rowsOf seq lk).length)) := by
  unfold sumOver at *
  rw [Starve.tsum_cons _ (by simp [law]), tsum_added _ fun ids => by simp [law]]
  refine tsum_congr fun ids => ?_
  rw [← ENNReal.tsum_mul_left]
  refine tsum_congr fun out => ?_
  by_cases hq : Q (.added ids :: out)
  · rw [if_pos hq, if_pos hq, law]
  · rw [if_neg hq, if_neg hq, mul_zero]

/-- What may be stored -/
structure Ok (maxlen : Int) (tc : Nat) (l : Dict Int Nat) (used : List Int) : Prop where
  fine : Starve.Fine tc l
  room : (trackedTotal l : Int) ≤ maxlen
  known : ∀ id ∈ l.keys, id ∈ used
  any : used ≠ [] → l ≠ []

theorem Ok.replaced {l : Dict Int Nat} {used : List Int} (h : Ok maxlen tc l used) {id : Int} (hid : id ∉ used) {n : Nat} (hn : tc ≤ n) (hpos : 0 < n)
    {ids : List Int} (hf : Frees l (trackedTotal l + n - maxlen) ids) : Ok maxlen tc (replaced l ids id n) (id :: used) := by
  have hkeys : (UniformRun.replaced l ids id n).keys = Dict.keys (l.filter fun p => p.1 ∉ ids) ++ [id] := by simp [UniformRun.replaced, Dict.keys]
  have hsub : (Dict.keys (l.filter fun p => p.1 ∉ ids)).Sublist l.keys := List.filter_sublist.map _
  refine ⟨⟨?_, ?_⟩, ?_, ?_, ?_⟩
  · rw [hkeys, List.nodup_append]
    refine ⟨hsub.nodup h.fine.nodup, by simp, fun a ha b hb e => ?_⟩
    rw [List.mem_singleton.1 hb] at e
    exact hid (e ▸ h.known a (hsub.subset ha))
  · intro p hp
    rcases List.mem_append.1 hp with hp | hp
    · exact h.fine.long p (List.mem_of_mem_filter hp)
    · rw [List.mem_singleton.1 hp]; exact ⟨hn, hpos⟩
  · have h1 : trackedTotal (l.filter fun p => p.1 ∉ ids) + pickedTotal l ids = trackedTotal l := by
      unfold trackedTotal pickedTotal
      clear hsub hkeys hf h
      induction l with
      | nil => simp
      | cons p l ih => by_cases hp : p.1 ∈ ids <;> simp [hp] at ih ⊢ <;> omega
    have h2 : trackedTotal (UniformRun.replaced l ids id n) = trackedTotal (l.filter fun p => p.1 ∉ ids) + n := by
      simp [UniformRun.replaced, trackedTotal]
    have h3 := hf.enough
    omega
  · intro a ha
    rw [hkeys] at ha
    rcases List.mem_append.1 ha with ha | ha
    · exact List.mem_cons_of_mem _ (h.known a (hsub.subset ha))
    · rw [List.mem_singleton.1 ha]; simp
  · intro _ he
    simp [UniformRun.replaced] at he

/-- What is ejected does not come back. -/
theorem gone {t0 : Table V} {id : Int} : ∀ (es : List (Event V)) (l : Dict Int Nat) (used : List Int) (out : List Outcome),
    id ∉ l.keys → id ∈ used → Valid t0 tc es used → id ∉ (storedAfter lk es l out).keys := by
  intro es
  induction es with
  | nil => intro l used out h _ _; simpa [storedAfter] using h
  | cons e es ih =>
    intro l used out h hu hv
    cases e with
    | batch count =>
      cases out with
      | nil => simpa [storedAfter] using h
      | cons o out => exact ih l used out h hu hv.2
    | add id' seq =>
      cases out with
      | nil => simpa [storedAfter] using h
      | cons o out =>
        cases o with
        | drawn b => simpa [storedAfter] using h
        | added ids =>
          refine ih _ (id' :: used) out ?_ (List.mem_cons_of_mem _ hu) hv.2.2.2.2
          intro hk
          simp only [replaced, Dict.keys, List.map_append, List.map_cons, List.map_nil, List.mem_append, List.mem_singleton] at hk
          rcases hk with hk | hk
          · exact h ((List.filter_sublist.map _).subset hk)
          · exact hv.2.2.1 (hk ▸ hu)

theorem after_sum {t0 : Table V} (hlk : t0.lengthKey = lk) {id : Int} {len : Nat} (hlen : 0 < len) :
    ∀ (es : List (Event V)) (l : Dict Int Nat) (used : List Int) (n : Nat), Ok maxlen tc l used → (id, len) ∈ l → Valid t0 tc es used →
    sumOver (fun out => id ∈ (storedAfter lk es l out).keys ∧ n ≤ ejecting out) (law lk maxlen tc es l) ≤
      ENNReal.ofReal (1 - len / (maxlen : ℝ)) ^ n := by
  intro es
  induction es with
  | nil =>
    intro l used n _ _ _
    rw [sumOver, tsum_eq_single [] fun out hne => by
      cases out with
      | nil => exact absurd rfl hne
      | cons o out => simp [law]]
    by_cases hn : n = 0
    · subst hn
      split <;> simp [law]
    · rw [if_neg (by rintro ⟨-, h⟩; simp [ejecting] at h; exact hn h)]; exact zero_le
  | cons e es ih =>
    intro l used n hok hmem hv
    cases e with
    | batch count =>
      exact sum_batch hok.fine (hok.any hv.1) count _ fun b => ih l used n hok hmem hv.2
    | add id' seq =>
      obtain ⟨-, -, hnew, ⟨rows, hrows, hr1, hr2, -⟩, hv'⟩ := hv
      rw [hlk] at hrows
      rw [sum_add, rowsOf_eq hrows]
      have hidu : id ∈ used := hok.known id (Dict.mem_keys_of_mem hmem)
      have hstep : ∀ (ids : List Int) (m : Nat), Frees l (trackedTotal l + rows.length - maxlen) ids → id ∉ ids → 
          sumOver (fun out => id ∈ (storedAfter lk es (replaced l ids id' rows.length) out).keys ∧ m ≤ ejecting out) (law lk maxlen tc es (replaced l ids id' rows.length)) ≤ ENNReal.ofReal (1 - len / (maxlen : ℝ)) ^ m := by
        intro ids m hf hi
        refine ih _ (id' :: used) m (hok.replaced hnew hr1 hr2 hf) ?_ hv'
        exact List.mem_append.2 (Or.inl (List.mem_filter.2 ⟨hmem, by simpa using hi⟩))
      by_cases hc : 0 < (trackedTotal l + rows.length - maxlen : Int)
      · have hp1 : ENNReal.ofReal (1 - len / (maxlen : ℝ)) ≤ 1 := by
          rw [ENNReal.ofReal_le_one]
          have h0 : (0 : ℝ) ≤ maxlen := by
            have := hok.room
            have : (0 : Int) ≤ maxlen := by omega
            exact_mod_cast this
          have : 0 ≤ (len : ℝ) / maxlen := by positivity
          linarith
        have hbound : ∀ ids, ejectLaw l (trackedTotal l + rows.length - maxlen) ids *
            sumOver (fun out => id ∈ (storedAfter lk (.add id' seq :: es) l (.added ids :: out)).keys ∧ n ≤ ejecting (.added ids :: out)) (law lk maxlen tc es (replaced l ids id' rows.length)) ≤
            (if id ∈ ids then 0 else ejectLaw l (trackedTotal l + rows.length - maxlen) ids) * ENNReal.ofReal (1 - len / (maxlen : ℝ)) ^ (n - 1) := by
          intro ids
          by_cases hi : id ∈ ids
          · rw [if_pos hi, zero_mul, sumOver, ENNReal.tsum_eq_zero.2, mul_zero]
            intro out
            refine if_neg ?_
            rintro ⟨h, -⟩
            rw [storedAfter] at h
            refine gone es _ (id' :: used) out ?_ (List.mem_cons_of_mem _ hidu) hv' h
            intro hk
            simp only [replaced, Dict.keys, List.map_append, List.map_cons, List.map_nil, List.mem_append, List.mem_singleton] at hk
            rcases hk with hk | hk
            · obtain ⟨p, hp, rfl⟩ := List.mem_map.1 hk
              have := (List.mem_filter.1 hp).2
              simp at this
              exact this hi
            · exact hnew (hk ▸ hidu)
          · rw [if_neg hi]
            by_cases hf : Frees l (trackedTotal l + rows.length - maxlen) ids
            · refine mul_le_mul_right (le_trans (sumOver_mono fun out hq => ?_) (hstep ids (n - 1) hf hi)) _
              rw [storedAfter, rowsOf_eq hrows] at hq
              refine ⟨hq.1, ?_⟩
              have := hq.2
              cases ids <;> simp only [ejecting] at this <;> omega
            · rw [ejectLaw, if_neg hf, zero_mul]; exact zero_le
        refine le_trans (ENNReal.tsum_le_tsum hbound) ?_
        rw [ENNReal.tsum_mul_right]
        refine le_trans (mul_le_mul_left (eject_without hok.fine.nodup hc hmem (cap := maxlen) (by exact_mod_cast hok.room) hlen) _) ?_
        cases n with
        | zero => simpa using hp1
        | succ n => rw [Nat.add_sub_cancel, pow_succ']
      · have h1 : ∀ ids, ejectLaw l (trackedTotal l + rows.length - maxlen) ids = if ids = [] then 1 else 0 :=
          fun ids => ejectLaw_nothing l (not_lt.1 hc) ids
        rw [tsum_eq_single [] fun ids hne => by rw [h1, if_neg hne, zero_mul], h1, if_pos rfl, one_mul]
        have hf : Frees l (trackedTotal l + rows.length - maxlen) [] := ⟨by simp, by simp, by simpa [pickedTotal] using not_lt.1 hc, by simp⟩
        refine le_trans (sumOver_mono fun out hq => ?_) (hstep [] n hf (by simp))
        rwa [storedAfter, rowsOf_eq hrows, ejecting] at hq

theorem sum_adds {t0 : Table V} (hlk : t0.lengthKey = lk) {es : List (Event V)} {l : Dict Int Nat} {used : List Int} {id : Int} {seq : Seqn V}
    (Q : List Outcome → Prop) {x : ℝ≥0∞} (hok : Ok maxlen tc l used) (hv : Valid t0 tc (.add id seq :: es) used)
    (h : ∀ ids, Ok maxlen tc (replaced l ids id (rowsOf seq lk).length) (id :: used) →
      sumOver (fun out => Q (.added ids :: out)) (law lk maxlen tc es (replaced l ids id (rowsOf seq lk).length)) ≤ x) :
    sumOver Q (law lk maxlen tc (.add id seq :: es) l) ≤ x := by
  obtain ⟨-, -, hnew, ⟨rows, hrows, hr1, hr2, -⟩, hv'⟩ := hv
  rw [hlk] at hrows
  have hs := sum_add (V := V) (lk := lk) (maxlen := maxlen) (tc := tc) (es := es) (l := l) id seq Q
  rw [hs]
  rw [rowsOf_eq hrows] at h ⊢
  refine le_trans (ENNReal.tsum_le_tsum (g := fun ids => ejectLaw l (trackedTotal l + rows.length - maxlen) ids * x) fun ids => ?_) ?_
  · by_cases hf : Frees l (trackedTotal l + rows.length - maxlen) ids
    · exact mul_le_mul_right (h ids (hok.replaced hnew hr1 hr2 hf)) _
    · rw [ejectLaw, if_neg hf, zero_mul]; exact zero_le
  · rw [ENNReal.tsum_mul_right]
    exact le_trans (mul_le_mul_left (eject_one hok.fine.nodup _) _) (by rw [one_mul])

/-- What happens before the episode is added does not matter. -/
theorem before_sum {t0 : Table V} (hlk : t0.lengthKey = lk) {id : Int} {seq : Seqn V} (es2 : List (Event V)) (R : List Outcome → Prop) {x : ℝ≥0∞}
    (h : ∀ l used, Ok maxlen tc l used → (id, (rowsOf seq lk).length) ∈ l → 0 < (rowsOf seq lk).length → tc ≤ (rowsOf seq lk).length →
      Valid t0 tc es2 used → sumOver (fun out => id ∈ (storedAfter lk es2 l out).keys ∧ R out) (law lk maxlen tc es2 l) ≤ x) :
    ∀ (es1 : List (Event V)) (l : Dict Int Nat) (used : List Int), Ok maxlen tc l used → Valid t0 tc (es1 ++ .add id seq :: es2) used →
    sumOver (fun out => id ∈ (storedAfter lk (es1 ++ .add id seq :: es2) l out).keys ∧ R (out.drop (es1.length + 1)))
      (law lk maxlen tc (es1 ++ .add id seq :: es2) l) ≤ x := by
  intro es1
  induction es1 with
  | nil =>
    intro l used hok hv
    refine sum_adds hlk _ hok hv fun ids hok' => ?_
    obtain ⟨-, -, -, ⟨rows, hrows, hr1, hr2, -⟩, hv'⟩ := hv
    rw [hlk] at hrows
    exact h _ (id :: used) hok' (by simp [replaced]) (by rwa [rowsOf_eq hrows]) (by rwa [rowsOf_eq hrows]) hv'
  | cons e es1 ih =>
    intro l used hok hv
    cases e with
    | batch count => exact sum_batch hok.fine (hok.any hv.1) count _ fun b => ih l used hok hv.2
    | add id' seq' => exact sum_adds hlk _ hok hv fun ids hok' => ih _ (id' :: used) hok' hv.2.2.2.2

/-- From the probabilities of outcomes to that of the numbers -/
theorem of_sum {columns : List Column} {t0 : Table V} {es : List (Event V)} (hm : 0 ≤ maxlen)
    (h : Table.new columns maxlen (.uniform {}) (.uniform {}) lk = (t0, .ok ())) (hv : Valid t0 tc es []) (id : Int) (R : List Outcome → Prop) :
    generators {w : Gen × Gen | ∃ fuel out t, run fuel tc es t0 w.1 w.2 = .ok (out, t) ∧ id ∈ t.lengths.keys ∧ R out} ≤
      sumOver (fun out => id ∈ (storedAfter lk es [] out).keys ∧ R out) (law lk maxlen tc es []) := by
  refine le_trans (measure_mono (t := ⋃ out, {w : Gen × Gen | (∃ fuel t, run fuel tc es t0 w.1 w.2 = .ok (out, t)) ∧
    (id ∈ (storedAfter lk es [] out).keys ∧ R out)}) ?_)
    (le_trans (measure_iUnion_le _) (ENNReal.tsum_le_tsum fun out => ?_))
  · rintro w ⟨fuel, out, t, hr, hk, hn⟩
    rw [(C155_stored hm h hv hr).1] at hk
    exact Set.mem_iUnion.2 ⟨out, ⟨fuel, t, hr⟩, hk, hn⟩
  · by_cases hq : id ∈ (storedAfter lk es [] out).keys ∧ R out
    · rw [if_pos hq, ← (C155 hm h hv out).2]
      exact measure_mono fun w hw => hw.1
    · rw [if_neg hq]
      exact le_of_eq (by simp [hq])

theorem ok_nil (hm : 0 ≤ maxlen) : Ok maxlen tc [] [] :=
  ⟨⟨by simp [Dict.keys], by simp⟩, by simpa [trackedTotal] using hm, by simp [Dict.keys], by simp⟩

end

/-- **C169**: In a memory that ejects at random, an episode is still stored after `n` later additions for which something had to go with a
probability of at most (1 - its length / the capacity) to the power `n`, whatever the history. -/
theorem C169 {columns : List Column} {maxlen : Int} {lk : String} {t0 : Table V} {tc : Nat} {es1 es2 : List (Event V)} {id : Int} {seq : Seqn V}
    (hm : 0 ≤ maxlen) (h : Table.new columns maxlen (.uniform {}) (.uniform {}) lk = (t0, .ok ()))
    (hv : Valid t0 tc (es1 ++ .add id seq :: es2) []) (n : Nat) :
    generators {w : Gen × Gen | ∃ fuel out t, run fuel tc (es1 ++ .add id seq :: es2) t0 w.1 w.2 = .ok (out, t) ∧ id ∈ t.lengths.keys ∧
      n ≤ ejecting (out.drop (es1.length + 1))} ≤ ENNReal.ofReal (1 - (rowsOf seq lk).length / (maxlen : ℝ)) ^ n := by
  obtain ⟨-, h2, -⟩ := St.start tc hm h
  exact le_trans (of_sum hm h hv id fun out => n ≤ ejecting (out.drop (es1.length + 1)))
    (before_sum h2 es2 (fun out => n ≤ ejecting out) (fun l used h3 h4 h5 _ h6 => after_sum h2 h5 es2 l used n h3 h4 h6) es1 [] [] (ok_nil hm) hv)

namespace Ex

open Verif.Props.Ex (cols)

/-- In a memory for five transitions, an episode of three is kept with a probability of at most two fifths when one of the two has to go. -/
example : generators {w : Gen × Gen | ∃ fuel out t, run fuel ((1 : Nat) : Int) UniformRun.Ex.es EjectLaw.Ex.r0 w.1 w.2 = .ok (out, t) ∧
    8 ∈ t.lengths.keys ∧ 1 ≤ ejecting (out.drop 2)} ≤ ENNReal.ofReal (2 / 5) := by
  have := C169 (t0 := EjectLaw.Ex.r0) (columns := cols) (maxlen := 5) (lk := "actions") (es1 := UniformRun.Ex.es.take 1)
    (by decide) (Prod.ext rfl (by decide +kernel)) UniformRun.Ex.valid 1
  refine this.trans (le_of_eq ?_)
  simp [rowsOf, Verif.Props.Ex.ep, Dict.get?]
  norm_num

end Ex

end Survive

end Verif.Props
