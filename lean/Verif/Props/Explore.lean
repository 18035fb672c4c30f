import Verif.Props.EpsGreedy
import Verif.Props.DqnRun
import Mathlib.Analysis.SpecificLimits.Normed
import Mathlib.MeasureTheory.OuterMeasure.BorelCantelli

/-!
# C166: the ε-greedy policy never stops exploring
-/

namespace Verif.Props

namespace Explore

open Verif.EpsGreedy EpsGreedy MeasureTheory Filter
open scoped ENNReal Classical Topology

variable {d : Nat} [NeZero d] {O : Type}

/-! ## Calls, one after the other -/

theorem calls_succ (u : Nat → ℝ) (c : Nat → Fin d) (world : List (List (Fin d)) → List (Fin d → ℝ)) (n : Nat) (s : State)
    (past : List (List (Fin d))) : calls u c world (n + 1) s past =
      match calls u c world n s past with
      | .error e => .error e
      | .ok (s', p) =>
        match forward u c (world p) s' with
        | (_, .error e) => .error e
        | (s'', .ok as) => .ok (s'', p ++ [as]) := by
  induction n generalizing s past with
  | zero =>
    simp only [calls]
    rcases forward u c (world past) s with ⟨s', r⟩
    cases r <;> rfl
  | succ n ih =>
    rw [calls]
    conv_rhs => rw [calls]
    rcases forward u c (world past) s with ⟨s', r⟩
    cases r with
    | error e => rfl
    | ok as => exact ih s' (past ++ [as])

/-- What was chosen in the first `n` calls -/
noncomputable def runOf (s : State) (world : List (List (Fin d)) → List (Fin d → ℝ)) (w : Omega d) (n : Nat) : List (List (Fin d)) :=
  match calls w.1 w.2 world n s [] with
  | .ok (_, p) => p
  | .error _ => []

section
variable {s : State} (world : List (List (Fin d)) → List (Fin d → ℝ))

theorem run_ok (hD : s.duration ≠ 0) (w : Omega d) (n : Nat) :
    (∃ s', calls w.1 w.2 world n s [] = .ok (s', runOf s world w n)) ∧ (runOf s world w n).length = n ∧
      ∃ as, runOf s world w (n + 1) = runOf s world w n ++ [as] ∧ as.length = (world (runOf s world w n)).length := by
  obtain ⟨s1, p, h1, h2, -⟩ := C146_calls w.1 w.2 world n hD
  obtain ⟨s2, p2, g1, g2, g3⟩ := C146_calls w.1 w.2 world (n + 1) hD
  have hr : runOf s world w n = p := by rw [runOf, h1]
  have hr2 : runOf s world w (n + 1) = p2 := by rw [runOf, g1]
  rw [hr, hr2]
  refine ⟨⟨s1, h1⟩, h2, ?_⟩
  rw [calls_succ, h1] at g1
  simp only at g1
  rcases hf : forward w.1 w.2 (world p) s1 with ⟨s3, r⟩
  rw [hf] at g1
  cases r with
  | error e => cases g1
  | ok as =>
    simp only [Except.ok.injEq, Prod.mk.injEq] at g1
    refine ⟨as, g1.2.symm, ?_⟩
    have := g3 n as (by rw [← g1.2, ← h2]; simp)
    rwa [← g1.2, ← h2, List.take_left] at this

theorem run_take (hD : s.duration ≠ 0) (w : Omega d) {k n : Nat} (hk : k ≤ n) : (runOf s world w n).take k = runOf s world w k := by
  induction n with
  | zero =>
    obtain rfl : k = 0 := by omega
    rw [List.take_of_length_le (run_ok world hD w 0).2.1.le]
  | succ n ih =>
    obtain ⟨-, h2, as, h3, -⟩ := run_ok world hD w n
    rcases Nat.lt_or_ge n k with h | h
    · obtain rfl : k = n + 1 := by omega
      rw [List.take_of_length_le (run_ok world hD w _).2.1.le]
    · rw [h3, List.take_append_of_le_length (by omega), ih h]

end

/-! ## Weights -/

/-- All lists of a length -/
def lists : Nat → List (List (Fin d))
  | 0 => [[]]
  | n + 1 => (List.finRange d).flatMap fun b => (lists n).map (b :: ·)

omit [NeZero d] in
theorem mem_lists (as : List (Fin d)) : as ∈ lists as.length := by
  induction as with
  | nil => simp [lists]
  | cons b as ih =>
    simp only [lists, List.length_cons, List.mem_flatMap, List.mem_map]
    exact ⟨b, List.mem_finRange b, as, ih, rfl⟩

theorem sum_flatMap {α β : Type} (l : List α) (g : α → List β) (f : β → ℝ≥0∞) :
    ((l.flatMap g).map f).sum = (l.map fun x => ((g x).map f).sum).sum := by
  induction l with
  | nil => simp
  | cons x l ih => simp [ih]

section weights
variable (o : O) (a : Fin d) (c : ℝ)

/-- Each row with the observation but another action counts with the factor `c`, one with the action makes it zero. -/
noncomputable def gain (os : List O) (as : List (Fin d)) : ℝ≥0∞ :=
  ((os.zip as).map fun x => if x.1 = o then (if x.2 = a then 0 else ENNReal.ofReal c) else 1).prod

variable {o a c}

theorem chance_row {e q : ℝ} (h0 : 0 ≤ e) (h1 : e ≤ 1) (hq : q ≤ e / d) (hq1 : q < 1) (hc : c = 1 / (1 - q)) (g : Fin d) (o' : O) :
    ∑ b, ENNReal.ofReal (chance e g b) * (if o' = o then (if b = a then 0 else ENNReal.ofReal c) else 1) ≤ 1 := by
  have hd : (0 : ℝ) < d := by exact_mod_cast NeZero.pos d
  have hpos : ∀ b, 0 ≤ chance e g b := fun b => by
    unfold chance
    have : 0 ≤ e / d := by positivity
    split <;> linarith
  have hc0 : 0 ≤ c := by rw [hc]; exact div_nonneg one_pos.le (by linarith)
  by_cases ho : o' = o
  · simp only [ho, if_true]
    have : ∀ b, ENNReal.ofReal (chance e g b) * (if b = a then 0 else ENNReal.ofReal c) = ENNReal.ofReal (if b = a then 0 else chance e g b * c) := by
      intro b
      split
      · simp
      · rw [ENNReal.ofReal_mul (hpos b)]
    simp only [this]
    rw [← ENNReal.ofReal_sum_of_nonneg (fun b _ => by split <;> [exact le_rfl; exact mul_nonneg (hpos b) hc0]), ← ENNReal.ofReal_one]
    refine ENNReal.ofReal_le_ofReal ?_
    have hs : ∑ b, (if b = a then 0 else chance e g b * c) = (1 - chance e g a) * c := by
      have h2 : ∀ b, (if b = a then 0 else chance e g b * c) = chance e g b * c - if b = a then chance e g b * c else 0 := by
        intro b; split <;> ring
      simp only [h2, Finset.sum_sub_distrib, ← Finset.sum_mul, chance_sum, Finset.sum_ite_eq', Finset.mem_univ, if_true]
      ring
    rw [hs, hc, mul_one_div, div_le_one (by linarith)]
    have : e / d ≤ chance e g a := by
      unfold chance
      split <;> linarith
    linarith
  · simp only [ho, if_false, mul_one]
    rw [← ENNReal.ofReal_sum_of_nonneg fun b _ => hpos b, chance_sum, ENNReal.ofReal_one]

/-- The mean of the factors of a call is at most 1. -/
theorem chances_sum {e q : ℝ} (h0 : 0 ≤ e) (h1 : e ≤ 1) (hq : q ≤ e / d) (hq1 : q < 1) (hc : c = 1 / (1 - q)) (pick : (Fin d → ℝ) → Fin d) :
    ∀ (qs : List (Fin d → ℝ)) (os : List O), qs.length = os.length →
      ((lists qs.length).map fun as => chances e pick qs as * gain o a c os as).sum ≤ 1 := by
  intro qs
  induction qs with
  | nil => intro os ho; simp [lists, chances, gain]
  | cons qr qs ih =>
    intro os ho
    cases os with
    | nil => simp at ho
    | cons o' os =>
      simp only [List.length_cons, lists, sum_flatMap, List.map_map]
      have hstep : ∀ b : Fin d, (((lists qs.length).map ((fun as => chances e pick (qr :: qs) as * gain o a c (o' :: os) as) ∘ (b :: ·))).sum) ≤
          ENNReal.ofReal (chance e (pick qr) b) * (if o' = o then (if b = a then 0 else ENNReal.ofReal c) else 1) := by
        intro b
        have : ((fun as => chances e pick (qr :: qs) as * gain o a c (o' :: os) as) ∘ (b :: ·)) = fun as =>
            ENNReal.ofReal (chance e (pick qr) b) * (if o' = o then (if b = a then 0 else ENNReal.ofReal c) else 1) *
              (chances e pick qs as * gain o a c os as) := by
          funext as
          simp only [Function.comp, chances, gain, List.length_cons, Nat.add_right_cancel_iff, List.zip_cons_cons, List.map_cons, List.prod_cons]
          split
          · ring
          · simp
        rw [this, List.sum_map_mul_left]
        exact mul_le_of_le_one_right (by positivity) (ih os (by simpa using ho))
      calc _ ≤ ((List.finRange d).map fun b => ENNReal.ofReal (chance e (pick qr) b) *
            (if o' = o then (if b = a then 0 else ENNReal.ofReal c) else 1)).sum := List.sum_le_sum fun b _ => hstep b
        _ = ∑ b, ENNReal.ofReal (chance e (pick qr) b) * (if o' = o then (if b = a then 0 else ENNReal.ofReal c) else 1) := by
            rw [← List.ofFn_eq_map, List.sum_ofFn]
        _ ≤ 1 := chance_row h0 h1 hq hq1 hc _ _

end weights

/-! ## Histories -/

section histories
variable {s : State} (world : List (List (Fin d)) → List (Fin d → ℝ)) (obs : List (List (Fin d)) → List O)

/-- All histories of a length -/
def histories : Nat → List (List (List (Fin d)))
  | 0 => [[]]
  | n + 1 => (histories n).flatMap fun ass => (lists (world ass).length).map fun as => ass ++ [as]

theorem run_mem (hD : s.duration ≠ 0) (w : Omega d) (n : Nat) : runOf s world w n ∈ histories world n := by
  induction n with
  | zero =>
    rw [List.eq_nil_of_length_eq_zero (run_ok world hD w 0).2.1]
    simp [histories]
  | succ n ih =>
    obtain ⟨-, -, as, h1, h2⟩ := run_ok world hD w n
    rw [h1]
    simp only [histories, List.mem_flatMap, List.mem_map]
    exact ⟨_, ih, as, h2 ▸ mem_lists as, rfl⟩

/-- The probability of a history -/
noncomputable def law (s : State) (pick : (Fin d → ℝ) → Fin d) (ass : List (List (Fin d))) : ℝ≥0∞ :=
  ∏ k ∈ Finset.range ass.length, chances (rate s.initial s.target s.duration (s.steps + k)) pick (world (ass.take k)) (ass.getD k [])

/-- The product of the factors of the calls after `N` of them -/
noncomputable def gains (o : O) (a : Fin d) (c : ℝ) (N : Nat) (ass : List (List (Fin d))) : ℝ≥0∞ :=
  ∏ k ∈ Finset.range ass.length, if N ≤ k then gain o a c (obs (ass.take k)) (ass.getD k []) else 1

theorem prod_snoc {α β : Type} [CommMonoid β] (f : Nat → List α → α → β) (z : α) (l : List α) (x : α) :
    ∏ k ∈ Finset.range (l ++ [x]).length, f k ((l ++ [x]).take k) ((l ++ [x]).getD k z) =
      (∏ k ∈ Finset.range l.length, f k (l.take k) (l.getD k z)) * f l.length l x := by
  rw [List.length_append, List.length_singleton, Finset.prod_range_succ]
  congr 1
  · refine Finset.prod_congr rfl fun k hk => ?_
    have hk := Finset.mem_range.1 hk
    rw [List.take_append_of_le_length hk.le, List.getD_eq_getElem?_getD, List.getElem?_append_left hk, List.getD_eq_getElem?_getD]
  · rw [List.take_left, List.getD_eq_getElem?_getD, List.getElem?_append_right le_rfl]
    simp

omit [NeZero d] in
theorem histories_length {n : Nat} {ass : List (List (Fin d))} (h : ass ∈ histories world n) : ass.length = n := by
  induction n generalizing ass with
  | zero => simp [histories] at h; simp [h]
  | succ n ih =>
    simp only [histories, List.mem_flatMap, List.mem_map] at h
    obtain ⟨p, hp, as, -, rfl⟩ := h
    simp [ih hp]

variable {world obs}

theorem gains_sum (hi : 0 ≤ s.initial ∧ s.initial ≤ 1) (ht : 0 ≤ s.target ∧ s.target ≤ 1) (hD : 0 < s.duration)
    (hl : ∀ p, (world p).length = (obs p).length) {q c : ℝ} (hq : ∀ k, q ≤ rate s.initial s.target s.duration k / d) (hq1 : q < 1)
    (hc : c = 1 / (1 - q)) (pick : (Fin d → ℝ) → Fin d) (o : O) (a : Fin d) (N n : Nat) :
    ((histories world n).map fun ass => law world s pick ass * gains obs o a c N ass).sum ≤ 1 := by
  induction n with
  | zero => simp [histories, law, gains]
  | succ n ih =>
    simp only [histories, sum_flatMap, List.map_map]
    refine le_trans (List.sum_le_sum fun ass hass => ?_) ih
    have hsplit : ((fun ass => law world s pick ass * gains obs o a c N ass) ∘ fun as => ass ++ [as]) = fun as =>
        law world s pick ass * gains obs o a c N ass * (chances (rate s.initial s.target s.duration (s.steps + ass.length)) pick (world ass) as *
          if N ≤ ass.length then gain o a c (obs ass) as else 1) := by
      funext as
      have h1 := prod_snoc (fun k p as => chances (rate s.initial s.target s.duration (s.steps + k)) pick (world p) as) [] ass as
      have h2 := prod_snoc (fun k p as => if N ≤ k then gain o a c (obs p) as else 1) [] ass as
      simp only [Function.comp, law, gains]
      rw [h1, h2]
      ring
    rw [hsplit, List.sum_map_mul_left]
    refine mul_le_of_le_one_right (by positivity) ?_
    have hr := rate_mem hi ht hD (s.steps + ass.length)
    by_cases hN : N ≤ ass.length
    · simp only [hN, if_true]
      exact chances_sum hr.1 hr.2 (hq _) hq1 hc pick _ _ (hl ass)
    · simp only [hN, if_false, mul_one]
      have h1 := chances_sum (O := Bool) (o := true) (a := 0) (c := 1 / (1 - 0)) (q := 0) hr.1 hr.2
        (div_nonneg hr.1 (by positivity)) one_pos rfl pick (world ass) (List.replicate (world ass).length false) (by simp)
      refine le_trans (le_of_eq ?_) h1
      congr 1
      refine List.map_congr_left fun as _ => ?_
      rw [gain, List.prod_eq_one, mul_one]
      intro x hx
      obtain ⟨y, hy, rfl⟩ := List.mem_map.1 hx
      have := List.eq_of_mem_replicate (List.of_mem_zip hy).1
      simp [this]

/-- The observation was met in at least `M` calls after the first `N`, and the action was never chosen for it. -/
def Bad (obs : List (List (Fin d)) → List O) (o : O) (a : Fin d) (N M : Nat) (ass : List (List (Fin d))) : Prop :=
  (∀ k, N ≤ k → k < ass.length → (o, a) ∉ (obs (ass.take k)).zip (ass.getD k [])) ∧
    M ≤ ((Finset.range ass.length).filter fun k => N ≤ k ∧ o ∈ obs (ass.take k)).card

theorem one_le_prod {l : List ℝ≥0∞} (h : ∀ x ∈ l, 1 ≤ x) : 1 ≤ l.prod := by
  induction l with
  | nil => simp
  | cons x l ih =>
    rw [List.prod_cons]
    exact one_le_mul (h x (by simp)) (ih fun y hy => h y (by simp [hy]))

theorem le_prod {l : List ℝ≥0∞} (h : ∀ x ∈ l, 1 ≤ x) {y : ℝ≥0∞} (hy : y ∈ l) : y ≤ l.prod := by
  induction l with
  | nil => simp at hy
  | cons x l ih =>
    rw [List.prod_cons]
    have h2 : ∀ x ∈ l, 1 ≤ x := fun y hy => h y (by simp [hy])
    rcases List.mem_cons.1 hy with rfl | hy
    · exact le_mul_of_one_le_right (by positivity) (one_le_prod h2)
    · exact le_mul_of_one_le_of_le (h x (by simp)) (ih h2 hy)

/-- Such a history has a large product of factors. -/
theorem bad_le {o : O} {a : Fin d} {c : ℝ} (hc : 1 ≤ c) {N M : Nat} {ass : List (List (Fin d))} (hb : Bad obs o a N M ass)
    (hlen : ∀ k < ass.length, (obs (ass.take k)).length = (ass.getD k []).length) : ENNReal.ofReal c ^ M ≤ gains obs o a c N ass := by
  have hc1 : 1 ≤ ENNReal.ofReal c := by rwa [ENNReal.one_le_ofReal]
  refine le_trans (pow_le_pow_right₀ hc1 hb.2) ?_
  rw [← Finset.prod_const, Finset.prod_filter, gains]
  refine Finset.prod_le_prod' fun k hk => ?_
  have hk := Finset.mem_range.1 hk
  by_cases hN : N ≤ k
  · have hall : ∀ x ∈ ((obs (ass.take k)).zip (ass.getD k [])).map fun x => if x.1 = o then (if x.2 = a then 0 else ENNReal.ofReal c) else 1,
        1 ≤ x := by
      intro x hx
      obtain ⟨⟨y, b⟩, hy, rfl⟩ := List.mem_map.1 hx
      by_cases h1 : y = o
      · by_cases h2 : b = a
        · subst h1 h2
          exact absurd hy (hb.1 k hN hk)
        · simp [h1, h2, hc]
      · simp [h1]
    simp only [hN, true_and, if_true]
    by_cases ho : o ∈ obs (ass.take k)
    · rw [if_pos ho, gain]
      refine le_prod hall ?_
      obtain ⟨i, hi, hio⟩ := List.getElem_of_mem ho
      have hi2 : i < (ass.getD k []).length := hlen k hk ▸ hi
      have hmem : (o, (ass.getD k [])[i]) ∈ (obs (ass.take k)).zip (ass.getD k []) := by
        rw [List.mem_iff_getElem]
        exact ⟨i, by simp only [List.length_zip]; omega, by rw [List.getElem_zip, hio]⟩
      refine List.mem_map.2 ⟨_, hmem, ?_⟩
      have hne : (ass.getD k [])[i] ≠ a := fun h => hb.1 k hN hk (h ▸ hmem)
      simp only [if_true, hne, if_false]
    · rw [if_neg ho]
      exact one_le_prod hall
  · simp [hN]

end histories

/-! ## With probability one -/

section main
variable {s : State} {world : List (List (Fin d)) → List (Fin d → ℝ)} {obs : List (List (Fin d)) → List O}

theorem law_eq (hi : 0 ≤ s.initial ∧ s.initial ≤ 1) (ht : 0 ≤ s.target ∧ s.target ≤ 1) (hD : 0 < s.duration) : ∃ pick : (Fin d → ℝ) → Fin d,
    ∀ (n : Nat) (ass : List (List (Fin d))), ass.length = n → rands.prod (ints d) {w | runOf s world w n = ass} = law world s pick ass := by
  obtain ⟨pick, -, h⟩ := C146 (d := d)
  refine ⟨pick, fun n ass hn => ?_⟩
  have h1 := h s hi ht hD world n ass
  rw [if_pos hn] at h1
  have hset : {w : Omega d | runOf s world w n = ass} = {w | ∃ s', calls w.1 w.2 world n s [] = .ok (s', ass)} := by
    ext w
    obtain ⟨⟨s', hs⟩, -⟩ := run_ok world hD.ne' w n
    constructor
    · intro hw
      exact ⟨s', by rw [hs, show runOf s world w n = ass from hw]⟩
    · rintro ⟨s2, h2⟩
      rw [hs] at h2
      simp only [Except.ok.injEq, Prod.mk.injEq] at h2
      exact h2.2
  rw [hset, h1, law, ← Fin.prod_univ_eq_prod_range (fun k =>
    chances (rate s.initial s.target s.duration (s.steps + k)) pick (world (ass.take k)) (ass.getD k []))]
  refine Finset.prod_congr rfl fun k _ => ?_
  have : ass.getD k [] = ass[k] := by
    rw [List.getD_eq_getElem?_getD, List.getElem?_eq_getElem k.2]
    rfl
  rw [this]

theorem measure_le_sum {α β : Type} [MeasurableSpace α] (μ : Measure α) (f : α → β) (l : List β) (P : β → Prop) (hf : ∀ w, f w ∈ l) :
    μ {w | P (f w)} ≤ (l.map fun x => if P x then μ {w | f w = x} else 0).sum := by
  have : ∀ l' : List β, μ {w | P (f w) ∧ f w ∈ l'} ≤ (l'.map fun x => if P x then μ {w | f w = x} else 0).sum := by
    intro l'
    induction l' with
    | nil => simp
    | cons x l' ih =>
      rw [List.map_cons, List.sum_cons]
      have hsub : {w | P (f w) ∧ f w ∈ x :: l'} ⊆ {w | P (f w) ∧ f w = x} ∪ {w | P (f w) ∧ f w ∈ l'} := by
        rintro w ⟨h1, h2⟩
        rcases List.mem_cons.1 h2 with h | h
        · exact .inl ⟨h1, h⟩
        · exact .inr ⟨h1, h⟩
      refine le_trans (measure_mono hsub) (le_trans (measure_union_le _ _) (add_le_add ?_ ih))
      split
      · exact measure_mono fun w hw => hw.2
      · next hx =>
        have : {w | P (f w) ∧ f w = x} = ∅ := by
          ext w
          simp only [Set.mem_setOf_eq, Set.mem_empty_iff_false, iff_false, not_and]
          intro h1 h2
          exact hx (h2 ▸ h1)
        rw [this, measure_empty]
  refine le_trans (measure_mono fun w hw => ?_) (this l)
  exact ⟨hw, hf w⟩

/-- The observation is rarely met often without the action. -/
theorem rare (hi : 0 ≤ s.initial ∧ s.initial ≤ 1) (ht : 0 ≤ s.target ∧ s.target ≤ 1) (hD : 0 < s.duration)
    (hl : ∀ p, (world p).length = (obs p).length) {q c : ℝ} (hq0 : 0 ≤ q) (hq : ∀ k, q ≤ rate s.initial s.target s.duration k / d) (hq1 : q < 1)
    (hc : c = 1 / (1 - q)) (o : O) (a : Fin d) (N M n : Nat) :
    rands.prod (ints d) {w | Bad obs o a N M (runOf s world w n)} ≤ (ENNReal.ofReal c ^ M)⁻¹ := by
  obtain ⟨pick, hlaw⟩ := law_eq (world := world) hi ht hD
  have hc1 : 1 ≤ c := by rw [hc, le_div_iff₀ (by linarith)]; linarith
  have hcp : ENNReal.ofReal c ^ M ≠ 0 := pow_ne_zero _ (by simp; linarith)
  have hct : ENNReal.ofReal c ^ M ≠ ∞ := ENNReal.pow_ne_top ENNReal.ofReal_ne_top
  rw [ENNReal.le_inv_iff_mul_le]
  have hlen : ∀ w, ∀ k < (runOf s world w n).length, (obs ((runOf s world w n).take k)).length = ((runOf s world w n).getD k []).length := by
    intro w k hk
    have hn := (run_ok (s := s) world hD.ne' w n).2.1
    rw [run_take world hD.ne' w (by omega)]
    obtain ⟨-, hkl, as, h1, h2⟩ := run_ok (s := s) world hD.ne' w k
    have h3 : (runOf s world w n)[k]? = some as := by
      have := congrArg (fun l => l[k]?) (run_take (s := s) world hD.ne' w (show k + 1 ≤ n by omega))
      simp only [h1] at this
      rw [List.getElem?_take_of_lt (by omega), List.getElem?_append_right (by omega)] at this
      simpa [hkl] using this
    rw [List.getD_eq_getElem?_getD, h3, Option.getD_some, h2, hl]
  have h1 := measure_le_sum (rands.prod (ints d)) (fun w => runOf s world w n) (histories world n)
    (fun ass => Bad obs o a N M ass ∧ ∀ k < ass.length, (obs (ass.take k)).length = (ass.getD k []).length) fun w => run_mem world hD.ne' w n
  have h2 : {w | Bad obs o a N M (runOf s world w n)} = {w | Bad obs o a N M (runOf s world w n) ∧
      ∀ k < (runOf s world w n).length, (obs ((runOf s world w n).take k)).length = ((runOf s world w n).getD k []).length} := by
    ext w
    exact ⟨fun h => ⟨h, hlen w⟩, fun h => h.1⟩
  rw [h2]
  refine le_trans (mul_le_mul_left h1 _) ?_
  rw [← List.sum_map_mul_right]
  refine le_trans (List.sum_le_sum fun ass hass => ?_) (gains_sum hi ht hD hl hq hq1 hc pick o a N n)
  split
  · next hb =>
    rw [hlaw n ass (histories_length world hass)]
    exact mul_le_mul_right (bad_le hc1 hb.1 hb.2) _
  · simp

/-- **Lemma**: With probability one the action is chosen again, if the observation is met again and again. -/
theorem again (hi : 0 ≤ s.initial ∧ s.initial ≤ 1) (ht : 0 ≤ s.target ∧ s.target ≤ 1) (hD : 0 < s.duration)
    (hl : ∀ p, (world p).length = (obs p).length) {q : ℝ} (hq0 : 0 < q) (hq : ∀ k, q ≤ rate s.initial s.target s.duration k / d) (hq1 : q < 1)
    (o : O) (a : Fin d) (N : Nat) : ∀ᵐ w ∂(rands.prod (ints d)), (∃ᶠ n in atTop, o ∈ obs (runOf s world w n)) →
      ∃ n ≥ N, ∃ as, runOf s world w (n + 1) = runOf s world w n ++ [as] ∧ (o, a) ∈ (obs (runOf s world w n)).zip as := by
  rw [ae_iff]
  set c := 1 / (1 - q) with hc
  have hc1 : 1 < c := by rw [hc, lt_div_iff₀ (by linarith)]; linarith
  have hle : ∀ M : Nat, rands.prod (ints d) {w | ¬ ((∃ᶠ n in atTop, o ∈ obs (runOf s world w n)) →
      ∃ n ≥ N, ∃ as, runOf s world w (n + 1) = runOf s world w n ++ [as] ∧ (o, a) ∈ (obs (runOf s world w n)).zip as)} ≤ (ENNReal.ofReal c ^ M)⁻¹ := by
    intro M
    set B : Nat → Set (Omega d) := fun m => ⋂ n ≥ m, {w | Bad obs o a N M (runOf s world w n)} with hB
    have hmono : Monotone B := fun m m' hm => Set.biInter_mono (fun n (hn : m' ≤ n) => le_trans hm hn) fun n _ => le_rfl
    have hsub : {w | ¬ ((∃ᶠ n in atTop, o ∈ obs (runOf s world w n)) →
        ∃ n ≥ N, ∃ as, runOf s world w (n + 1) = runOf s world w n ++ [as] ∧ (o, a) ∈ (obs (runOf s world w n)).zip as)} ⊆ ⋃ m, B m := by
      intro w hw
      simp only [Set.mem_setOf_eq, Classical.not_imp, not_exists, not_and] at hw
      obtain ⟨hf, hno⟩ := hw
      have hinf : {n | N ≤ n ∧ o ∈ obs (runOf s world w n)}.Infinite := by
        rw [← Nat.frequently_atTop_iff_infinite]
        exact (hf.and_eventually (eventually_ge_atTop N)).mono fun n hn => ⟨hn.2, hn.1⟩
      obtain ⟨t, htsub, htc⟩ := hinf.exists_subset_card_eq M
      refine Set.mem_iUnion.2 ⟨t.sup id + 1, ?_⟩
      simp only [hB, Set.mem_iInter, Set.mem_setOf_eq]
      intro n hn
      have hlenn := (run_ok (s := s) world hD.ne' w n).2.1
      refine ⟨fun k hNk hk hmem => ?_, ?_⟩
      · obtain ⟨-, hkl, as, h1, -⟩ := run_ok (s := s) world hD.ne' w k
        rw [run_take world hD.ne' w (by omega)] at hmem
        have h3 : (runOf s world w n)[k]? = some as := by
          have := congrArg (fun l => l[k]?) (run_take (s := s) world hD.ne' w (show k + 1 ≤ n by omega))
          simp only [h1] at this
          rw [List.getElem?_take_of_lt (by omega), List.getElem?_append_right (by omega)] at this
          simpa [hkl] using this
        rw [List.getD_eq_getElem?_getD, h3, Option.getD_some] at hmem
        exact hno k hNk as h1 hmem
      · rw [← htc]
        refine Finset.card_le_card fun k hk => ?_
        have hkn : k < n := lt_of_le_of_lt (Finset.le_sup (f := id) hk) hn
        have hk2 := htsub hk
        simp only [Finset.mem_filter, Finset.mem_range, hlenn]
        exact ⟨hkn, hk2.1, by rw [run_take world hD.ne' w hkn.le]; exact hk2.2⟩
    refine le_trans (measure_mono hsub) ?_
    rw [hmono.measure_iUnion]
    refine iSup_le fun m => le_trans (measure_mono ?_) (rare hi ht hD hl hq0.le hq hq1 hc o a N M m)
    intro w hw
    simp only [hB, Set.mem_iInter] at hw
    exact hw m le_rfl
  have hlim : Tendsto (fun M : Nat => (ENNReal.ofReal c ^ M)⁻¹) atTop (𝓝 0) := by
    have h1 : (ENNReal.ofReal c)⁻¹ < 1 := by
      rw [ENNReal.inv_lt_one, ENNReal.one_lt_ofReal]
      exact hc1
    simpa [ENNReal.inv_pow] using ENNReal.tendsto_pow_atTop_nhds_zero_of_lt_one h1
  exact le_antisymm (ge_of_tendsto' hlim hle) (by positivity)

/-- **C166**: However the network is trained and whatever the environments do, with probability one every action is chosen again and
again for every observation that is met again and again, if neither the initial nor the target exploration rate is zero. -/
theorem C166 [Countable O] (hi : 0 < s.initial ∧ s.initial ≤ 1) (ht : 0 < s.target ∧ s.target ≤ 1) (hD : 0 < s.duration)
    (world : List (List (Fin d)) → List (Fin d → ℝ)) (obs : List (List (Fin d)) → List O) (hl : ∀ p, (world p).length = (obs p).length) :
    ∀ᵐ w ∂(rands.prod (ints d)), ∃ run : Nat → List (List (Fin d)),
      (∀ n, ∃ s', calls w.1 w.2 world n s [] = .ok (s', run n)) ∧
      (∀ n, ∃ as, run (n + 1) = run n ++ [as] ∧ as.length = (obs (run n)).length) ∧
      ∀ o a, (∃ᶠ n in atTop, o ∈ obs (run n)) → ∃ᶠ n in atTop, ∃ as, run (n + 1) = run n ++ [as] ∧ (o, a) ∈ (obs (run n)).zip as := by
  have hd : (0 : ℝ) < d := by exact_mod_cast NeZero.pos d
  have hd1 : (1 : ℝ) ≤ d := by exact_mod_cast NeZero.pos d
  obtain ⟨e, he, he1, her⟩ : ∃ e : ℝ, 0 < e ∧ e ≤ 1 ∧ ∀ k, e ≤ rate s.initial s.target s.duration k := by
    refine ⟨min s.initial s.target, lt_min hi.1 ht.1, (min_le_left _ _).trans hi.2, fun k => ?_⟩
    have h1 : 0 < Real.exp (-(k / s.duration : ℝ)) := Real.exp_pos _
    have h2 : Real.exp (-(k / s.duration : ℝ)) ≤ 1 := Real.exp_le_one_iff.2 (by
      have : (0 : ℝ) < s.duration := by exact_mod_cast hD
      have : (0 : ℝ) ≤ k / s.duration := by positivity
      linarith)
    unfold rate
    generalize Real.exp (-(k / s.duration : ℝ)) = x at h1 h2
    have h3 := min_le_left s.initial s.target
    have h4 := min_le_right s.initial s.target
    nlinarith
  have hq : ∀ k, e / (2 * d) ≤ rate s.initial s.target s.duration k / d := fun k => by
    rw [div_le_div_iff₀ (by positivity) hd]
    nlinarith [her k]
  have h : ∀ᵐ w ∂(rands.prod (ints d)), ∀ (o : O) (a : Fin d) (N : Nat), (∃ᶠ n in atTop, o ∈ obs (runOf s world w n)) →
      ∃ n ≥ N, ∃ as, runOf s world w (n + 1) = runOf s world w n ++ [as] ∧ (o, a) ∈ (obs (runOf s world w n)).zip as := by
    rw [ae_all_iff]; intro o
    rw [ae_all_iff]; intro a
    rw [ae_all_iff]; intro N
    exact again ⟨hi.1.le, hi.2⟩ ⟨ht.1.le, ht.2⟩ hD hl (by positivity) hq (by rw [div_lt_one (by positivity)]; linarith) o a N
  filter_upwards [h] with w hw
  refine ⟨runOf s world w, fun n => (run_ok world hD.ne' w n).1, fun n => ?_, fun o a ho => ?_⟩
  · obtain ⟨-, -, as, h1, h2⟩ := run_ok (s := s) world hD.ne' w n
    exact ⟨as, h1, by rw [h2, hl]⟩
  · rw [frequently_atTop]
    exact fun N => hw o a N ho

end main

/-! ## Without a target rate -/

section ends
variable {s : State} {world : List (List (Fin d)) → List (Fin d → ℝ)} {B : Nat}

theorem loop_used (e : ℝ) (u : Nat → ℝ) (c : Nat → Fin d) (qs : List (Fin d → ℝ)) (i j : Nat) :
    (loop e u c qs i j).2.1 = i + qs.length := by
  induction qs generalizing i j with
  | nil => simp [loop]
  | cons q qs ih =>
    simp only [loop]
    split <;> simp [ih] <;> omega

theorem loop_best (e : ℝ) (u : Nat → ℝ) (c : Nat → Fin d) (qs : List (Fin d → ℝ)) (i j : Nat) (h : ∀ r < qs.length, e ≤ u (i + r)) :
    (loop e u c qs i j).1 = qs.map argmax := by
  induction qs generalizing i j with
  | nil => simp [loop]
  | cons q qs ih =>
    have h0 := h 0 (by simp)
    rw [Nat.add_zero] at h0
    simp only [loop, not_lt.2 h0, if_false, List.map_cons]
    rw [ih (i + 1) j fun r hr => by
      have := h (r + 1) (by simpa using hr)
      rwa [show i + (r + 1) = i + 1 + r by omega] at this]

theorem run_of {w : Omega d} {n : Nat} {x : State × List (List (Fin d))} (h : calls w.1 w.2 world n s [] = .ok x) :
    calls w.1 w.2 world n s [] = .ok (x.1, runOf s world w n) := by
  rw [runOf, h]

theorem run_state (hD : s.duration ≠ 0) (hB : ∀ p, (world p).length = B) (w : Omega d) (n : Nat) :
    ∃ s', calls w.1 w.2 world n s [] = .ok (s', runOf s world w n) ∧ s'.initial = s.initial ∧ s'.target = s.target ∧
      s'.duration = s.duration ∧ s'.steps = s.steps + n ∧ s'.rands = s.rands + B * n := by
  induction n with
  | zero => exact ⟨s, by simp [calls, runOf], rfl, rfl, rfl, rfl, by simp⟩
  | succ n ih =>
    obtain ⟨s1, h1, h2, h3, h4, h5, h6⟩ := ih
    have hc := calls_succ w.1 w.2 world n s []
    rw [h1] at hc
    simp only [forward, epsilon_eq (show s1.duration ≠ 0 by rwa [h4])] at hc
    refine ⟨_, run_of hc, h2, h3, h4, by simp only [h5]; omega, ?_⟩
    simp only [loop_used, hB, h6, Nat.mul_succ]
    omega

theorem run_best (hD : s.duration ≠ 0) (hB : ∀ p, (world p).length = B) (w : Omega d) (n : Nat)
    (h : ∀ r < B, rate s.initial s.target s.duration (s.steps + n) ≤ w.1 (s.rands + B * n + r)) :
    runOf s world w (n + 1) = runOf s world w n ++ [(world (runOf s world w n)).map argmax] := by
  obtain ⟨s1, h1, h2, h3, h4, h5, h6⟩ := run_state hD hB w n
  have hc := calls_succ w.1 w.2 world n s []
  rw [h1] at hc
  simp only [forward, epsilon_eq (show s1.duration ≠ 0 by rwa [h4])] at hc
  conv_lhs => rw [runOf, hc]
  simp only
  rw [loop_best]
  intro r hr
  rw [h2, h3, h4, h5, h6]
  exact h r (by rwa [hB] at hr)

theorem below (k : Nat) {e : ℝ} (h0 : 0 ≤ e) (h1 : e ≤ 1) : rands.prod (ints d) {w | w.1 k < e} = ENNReal.ofReal e := by
  have hset : {w : Omega d | w.1 k < e} = (Set.pi ({k} : Finset Nat) fun _ => Set.Iio e) ×ˢ Set.univ := by
    ext w; simp
  rw [hset, Measure.prod_prod, measure_univ, mul_one]
  unfold rands
  rw [Measure.infinitePi_pi _ fun m _ => measurableSet_Iio, Finset.prod_singleton, Measure.restrict_apply measurableSet_Iio]
  have : Set.Iio e ∩ Set.Ico 0 1 = Set.Ico 0 e := by
    ext x
    simp only [Set.mem_inter_iff, Set.mem_Iio, Set.mem_Ico]
    constructor
    · rintro ⟨h2, h3, h4⟩; exact ⟨h3, h2⟩
    · rintro ⟨h2, h3⟩; exact ⟨h3, h2, by linarith⟩
  rw [this, Real.volume_Ico, sub_zero]

/-- **C166**: With the target rate zero, exploration ends: with probability one there is a call after which every action has the largest
value, whatever the values are, in a fixed number of environments. -/
theorem C166_ends (hi : 0 ≤ s.initial ∧ s.initial ≤ 1) (ht : s.target = 0) (hD : 0 < s.duration)
    (world : List (List (Fin d)) → List (Fin d → ℝ)) {B : Nat} (hB : ∀ p, (world p).length = B) :
    ∀ᵐ w ∂(rands.prod (ints d)), ∃ run : Nat → List (List (Fin d)),
      (∀ n, ∃ s', calls w.1 w.2 world n s [] = .ok (s', run n)) ∧
      ∀ᶠ n in atTop, ∃ as, run (n + 1) = run n ++ [as] ∧ as.length = B ∧
        ∀ q a, (q, a) ∈ (world (run n)).zip as → ∀ b, q b ≤ q a := by
  have hDr : (0 : ℝ) < s.duration := by exact_mod_cast hD
  have hrate : ∀ k, 0 ≤ rate s.initial s.target s.duration k ∧ rate s.initial s.target s.duration k ≤ 1 :=
    fun k => rate_mem hi (by rw [ht]; norm_num) hD k
  have hsum : ∀ r, ∑' n, rands.prod (ints d) {w | w.1 (s.rands + B * n + r) < rate s.initial s.target s.duration (s.steps + n)} ≠ ∞ := by
    intro r
    simp only [below _ (hrate _).1 (hrate _).2]
    have hx : Real.exp (-(1 / s.duration : ℝ)) < 1 := by
      have h1 : (0 : ℝ) < 1 / s.duration := by positivity
      have h2 : -(1 / s.duration : ℝ) < 0 := by linarith
      simpa using Real.exp_lt_exp.2 h2
    have hs : Summable fun n : Nat => rate s.initial s.target s.duration (s.steps + n) := by
      have := (summable_geometric_of_lt_one (Real.exp_pos _).le hx).mul_left (s.initial * Real.exp (-(s.steps / s.duration : ℝ)))
      refine this.congr fun n => ?_
      rw [rate, ht, ← Real.exp_nat_mul, mul_assoc, ← Real.exp_add]
      simp only [zero_add, sub_zero]
      congr 2
      push_cast
      field_simp
      ring
    exact hs.tsum_ofReal_ne_top
  have hae : ∀ᵐ w ∂(rands.prod (ints d)), ∀ r : Nat, ∀ᶠ n in atTop,
      ¬ w.1 (s.rands + B * n + r) < rate s.initial s.target s.duration (s.steps + n) := by
    rw [ae_all_iff]
    intro r
    exact ae_eventually_notMem (hsum r)
  filter_upwards [hae] with w hw
  refine ⟨runOf s world w, fun n => (run_ok world hD.ne' w n).1, ?_⟩
  have hall : ∀ᶠ n in atTop, ∀ r ∈ Finset.range B, ¬ w.1 (s.rands + B * n + r) < rate s.initial s.target s.duration (s.steps + n) :=
    (Filter.eventually_all_finset _).2 fun r _ => hw r
  filter_upwards [hall] with n hn
  refine ⟨_, run_best hD.ne' hB w n fun r hr => not_lt.1 (hn r (Finset.mem_range.2 hr)), by simp [hB], ?_⟩
  intro q a hqa b
  obtain ⟨i, hi2, h3⟩ := List.getElem_of_mem hqa
  rw [List.getElem_zip, List.getElem_map] at h3
  simp only [Prod.mk.injEq] at h3
  rw [← h3.2, ← h3.1]
  exact argmax_best _ b

end ends

/-! ## Learning while exploring -/

section learning
open Verif.DqnRun Verif.DqnRun.Spec Verif.Dqn.Spec
open Verif.Dqn (Sample)
variable {n m : Nat}

/-- What follows in an environment whose episodes begin with the observation `start`, which is given at once when an episode ends, as
vectorised environments do -/
def Spec.follow (e : Env n m) (start s : Fin n) (a : Fin (m + 1)) : Fin n := if e.ends s a then start else e.next s a

/-- The observations after these actions -/
def Spec.observed (e : Env n m) (start : Fin n) (os : List (Fin n)) (p : List (List (Fin (m + 1)))) : List (Fin n) :=
  p.foldl (fun os as => os.zipWith (Spec.follow e start) as) os

/-- The steps that were made by these actions, a batch for each call -/
noncomputable def Spec.steps (e : Env n m) (start : Fin n) : List (Fin n) → List (List (Fin (m + 1))) → List (List (Sample ℝ))
  | _, [] => []
  | os, as :: p => os.zipWith (rowOf e) as :: Spec.steps e start (os.zipWith (Spec.follow e start) as) p

/-- Every observation can be reached from every other one. -/
def Spec.Connected (e : Env n m) (start : Fin n) : Prop :=
  ∀ s t, Relation.ReflTransGen (fun s t => ∃ a, Spec.follow e start s a = t) s t

theorem steps_snoc (e : Env n m) (start : Fin n) (os : List (Fin n)) (p : List (List (Fin (m + 1)))) (as : List (Fin (m + 1))) :
    Spec.steps e start os (p ++ [as]) = Spec.steps e start os p ++ [(Spec.observed e start os p).zipWith (rowOf e) as] := by
  induction p generalizing os with
  | nil => simp [Spec.steps, Spec.observed]
  | cons x p ih => simp [Spec.steps, ih, Spec.observed]

theorem observed_snoc (e : Env n m) (start : Fin n) (os : List (Fin n)) (p : List (List (Fin (m + 1)))) (as : List (Fin (m + 1))) :
    Spec.observed e start os (p ++ [as]) = (Spec.observed e start os p).zipWith (Spec.follow e start) as := by
  simp [Spec.observed]

theorem zipWith_map {α β γ : Type} (f : α → β → γ) (l : List α) (l' : List β) : l.zipWith f l' = (l.zip l').map fun x => f x.1 x.2 := by
  induction l generalizing l' with
  | nil => rfl
  | cons x l ih =>
    cases l' with
    | nil => rfl
    | cons y l' => simp [ih]

theorem frequently_some {p : Fin n → Nat → Prop} (h : ∀ k, ∃ s, p s k) : ∃ s, ∃ᶠ k in atTop, p s k := by
  by_contra hc
  simp only [not_exists] at hc
  have : ∀ᶠ k in atTop, ∀ s, ¬ p s k := Filter.eventually_all.2 fun s => Filter.not_frequently.1 (hc s)
  obtain ⟨k, hk⟩ := this.exists
  obtain ⟨s, hs⟩ := h k
  exact hk s hs

theorem frequently_succ {p : Nat → Prop} (h : ∃ᶠ k in atTop, p (k + 1)) : ∃ᶠ k in atTop, p k := by
  rw [frequently_atTop] at h ⊢
  intro N
  obtain ⟨k, hk, hp⟩ := h N
  exact ⟨k + 1, by omega, hp⟩

/-- **C166**: In environments where every observation can be reached from every other one, the ε-greedy policy finds all of them, and a
table that is trained after each call on the steps just made, by which the actions are chosen or not, tends with probability one to
the best discounted returns. -/
theorem C166_learns (e : Env n m) (start : Fin n) (hcon : Spec.Connected e start) {first : List (Fin n)} (hf : first ≠ [])
    {s : State} (hi : 0 < s.initial ∧ s.initial ≤ 1) (ht : 0 < s.target ∧ s.target ≤ 1) (hD : 0 < s.duration)
    (world : List (List (Fin (m + 1))) → List (Fin (m + 1) → ℝ)) (hl : ∀ p, (world p).length = (Spec.observed e start first p).length)
    {c : Setup} (hc : Usual c) {x0 : Learner n m} {t0 : Fin n → Fin (m + 1) → ℝ} (h0 : x0.target = table t0) :
    ∀ᵐ w ∂(rands.prod (ints (m + 1))), ∃ (run : Nat → List (List (Fin (m + 1)))) (learner : Nat → Learner n m),
      (∀ k, (∃ s', calls w.1 w.2 world k s [] = .ok (s', run k)) ∧
        train c (Spec.steps e start first (run k)) x0 = .ok (learner k)) ∧
      (∀ o a, ∃ᶠ k in atTop, ∃ as, run (k + 1) = run k ++ [as] ∧ (o, a) ∈ (Spec.observed e start first (run k)).zip as) ∧
      ∀ o a x, Best (e.scale c.scale) c.gamma o a x → Tendsto (fun k => (learner k).net.value (o, a)) atTop (𝓝 x) := by
  filter_upwards [C166 hi ht hD world (Spec.observed e start first) hl] with w hw
  obtain ⟨run, h1, h2, h3⟩ := hw
  choose acts ha hal using h2
  have hr0 : run 0 = [] := by
    obtain ⟨s', hs⟩ := h1 0
    simp only [calls, Except.ok.injEq, Prod.mk.injEq] at hs
    exact hs.2.symm
  have hlen : ∀ k, (Spec.observed e start first (run k)).length = first.length := by
    intro k
    induction k with
    | zero => rw [hr0]; rfl
    | succ k ih => rw [ha, observed_snoc, List.length_zipWith, hal, ih, min_self]
  have hpos : 0 < first.length := List.length_pos_iff.2 hf
  obtain ⟨o0, ho0⟩ := frequently_some (n := n) (p := fun o k => o ∈ Spec.observed e start first (run k)) fun k => by
    obtain ⟨o, ho⟩ := List.exists_mem_of_length_pos (l := Spec.observed e start first (run k)) (by rw [hlen]; exact hpos)
    exact ⟨o, ho⟩
  have hall : ∀ o, ∃ᶠ k in atTop, o ∈ Spec.observed e start first (run k) := by
    intro o
    have := hcon o0 o
    induction this with
    | refl => exact ho0
    | tail _ hstep ih =>
      obtain ⟨a, rfl⟩ := hstep
      refine frequently_succ ((h3 _ a ih).mono ?_)
      rintro k ⟨as, hk, hmem⟩
      rw [hk, observed_snoc]
      rw [zipWith_map] 
      exact List.mem_map.2 ⟨_, hmem, rfl⟩
  have htry : ∀ o a, ∃ᶠ k in atTop, ∃ as, run (k + 1) = run k ++ [as] ∧ (o, a) ∈ (Spec.observed e start first (run k)).zip as :=
    fun o a => h3 o a (hall o)
  have hsteps : ∀ k, Spec.steps e start first (run k) =
      (List.range k).map fun k => (Spec.observed e start first (run k)).zipWith (rowOf e) (acts k) := by
    intro k
    induction k with
    | zero => rw [hr0]; rfl
    | succ k ih => rw [ha, steps_snoc, ih, List.range_succ, List.map_append]; rfl
  obtain ⟨learner, t, h4, h5⟩ := C157 e hc h0 (b := fun k => (Spec.observed e start first (run k)).zipWith (rowOf e) (acts k))
    (fun k x hx => by
      rw [zipWith_map] at hx
      obtain ⟨y, -, rfl⟩ := List.mem_map.1 hx
      exact ⟨_, _, rfl⟩)
    (N := first.length) (fun k => by
      have : ((Spec.observed e start first (run k)).zipWith (rowOf e) (acts k)).length = first.length := by
        rw [List.length_zipWith, hal, hlen, min_self]
      exact ⟨List.length_pos_iff.1 (by rw [this]; exact hpos), this.le⟩)
    (fun o a => (htry o a).mono fun k ⟨as, hk, hmem⟩ => by
      have : as = acts k := by
        have := hk.symm.trans (ha k)
        simpa using this
      subst this
      refine ⟨rowOf e o a, ?_, rfl, rfl⟩
      rw [zipWith_map]
      exact List.mem_map.2 ⟨_, hmem, rfl⟩)
  exact ⟨run, learner, fun k => ⟨h1 k, by rw [hsteps]; exact (h4 k).1⟩, htry, fun o a x hx => (h5 o a x hx).1⟩

/-- The values that the table has for the observations, after its training on the steps of these actions -/
noncomputable def Spec.own (e : Env n m) (start : Fin n) (first : List (Fin n)) (c : Setup) (x0 : Learner n m)
    (p : List (List (Fin (m + 1)))) : List (Fin (m + 1) → ℝ) :=
  (Spec.observed e start first p).map fun o a =>
    match train c (Spec.steps e start first p) x0 with
    | .ok x => x.net.value (o, a)
    | .error _ => 0

/-- **C166**: This holds also for actions that are chosen by the table itself, as far as it is trained, and in the end an action with the
largest value is best. -/
theorem C166_own (e : Env n m) (start : Fin n) (hcon : Spec.Connected e start) {first : List (Fin n)} (hf : first ≠ [])
    {s : State} (hi : 0 < s.initial ∧ s.initial ≤ 1) (ht : 0 < s.target ∧ s.target ≤ 1) (hD : 0 < s.duration)
    {c : Setup} (hc : Usual c) {x0 : Learner n m} {t0 : Fin n → Fin (m + 1) → ℝ} (h0 : x0.target = table t0) :
    ∀ᵐ w ∂(rands.prod (ints (m + 1))), ∃ (run : Nat → List (List (Fin (m + 1)))) (learner : Nat → Learner n m),
      (∀ k, (∃ s', calls w.1 w.2 (Spec.own e start first c x0) k s [] = .ok (s', run k)) ∧
        train c (Spec.steps e start first (run k)) x0 = .ok (learner k)) ∧
      (∀ o a x, Best (e.scale c.scale) c.gamma o a x → Tendsto (fun k => (learner k).net.value (o, a)) atTop (𝓝 x)) ∧
      ∀ᶠ k in atTop, ∀ o a, (∀ b, (learner k).net.value (o, b) ≤ (learner k).net.value (o, a)) →
        ∀ y, Best (e.scale c.scale) c.gamma o a y → ∀ b z, Best (e.scale c.scale) c.gamma o b z → z ≤ y := by
  filter_upwards [C166_learns e start hcon hf hi ht hD (Spec.own e start first c x0) (fun p => by simp [Spec.own]) hc h0] with w hw
  obtain ⟨run, learner, h1, -, h2⟩ := hw
  exact ⟨run, learner, h1, h2, greedy_of_tendsto (e.scale c.scale) hc.gamma hc.gamma_lt
    (q := fun k o a => (learner k).net.value (o, a)) fun o a x hx => h2 o a x hx⟩

/-! ### Cases: the two observations of C116, in three environments, and one in which they cannot all be reached -/

namespace Ex

theorem connected : Spec.Connected Verif.Dqn.Ex.env 0 := by
  have h01 : ∃ a, Spec.follow Verif.Dqn.Ex.env 0 0 a = 1 := ⟨1, by decide +kernel⟩
  have h10 : ∃ a, Spec.follow Verif.Dqn.Ex.env 0 1 a = 0 := ⟨1, by decide +kernel⟩
  intro s t
  fin_cases s <;> fin_cases t
  · exact .refl
  · exact .single h01
  · exact .single h10
  · exact .refl

/-- With the rate from 1 to 1/20 in 1000 steps, the table finds that action 1 is worth 1/2 in the first observation, and action 0 1/4. -/
example : ∀ᵐ w ∂(rands.prod (ints 2)), ∃ (run : Nat → List (List (Fin 2))) (learner : Nat → Learner 2 1),
    (∀ k, (∃ s', calls w.1 w.2 (Spec.own Verif.Dqn.Ex.env 0 [0, 0, 1] DqnRun.Ex.setup DqnRun.Ex.start) k (State.new 1 (1 / 20) 1000) [] = .ok (s', run k)) ∧
      train DqnRun.Ex.setup (Spec.steps Verif.Dqn.Ex.env 0 [0, 0, 1] (run k)) DqnRun.Ex.start = .ok (learner k)) ∧
    Tendsto (fun k => (learner k).net.value (0, 0)) atTop (𝓝 (1 / 4)) ∧ Tendsto (fun k => (learner k).net.value (0, 1)) atTop (𝓝 (1 / 2)) := by
  filter_upwards [C166_own Verif.Dqn.Ex.env 0 connected (first := [0, 0, 1]) (by simp) (s := State.new 1 (1 / 20) 1000)
    (by norm_num [State.new]) (by norm_num [State.new]) (by norm_num [State.new]) DqnRun.Ex.usual (x0 := DqnRun.Ex.start)
    (show DqnRun.Ex.start.target = table (fun (_ : Fin 2) (_ : Fin 2) => (-5 : ℝ)) from rfl)] with w hw
  obtain ⟨run, learner, h1, h2, -⟩ := hw
  have he : Verif.Dqn.Ex.env.scale DqnRun.Ex.setup.scale = Verif.Dqn.Ex.env := by simp [Env.scale, DqnRun.Ex.setup]
  rw [he] at h2
  refine ⟨run, learner, h1, h2 0 0 _ ?_, h2 0 1 _ ?_⟩
  · simpa [Verif.Dqn.Ex.best, DqnRun.Ex.setup] using Verif.Dqn.fixed_best Verif.Dqn.Ex.env (g := 1 / 2) (by norm_num) (by norm_num) Verif.Dqn.Ex.fixed 0 0
  · simpa [Verif.Dqn.Ex.best, DqnRun.Ex.setup] using Verif.Dqn.fixed_best Verif.Dqn.Ex.env (g := 1 / 2) (by norm_num) (by norm_num) Verif.Dqn.Ex.fixed 0 1

/-- The steps of two calls -/
example : Spec.observed Verif.Dqn.Ex.env 0 [0, 0, 1] [[1, 0, 1]] = [1, 0, 0] ∧
    Spec.observed Verif.Dqn.Ex.env 0 [0, 0, 1] [[1, 0, 1], [0, 1, 1]] = [1, 1, 1] := by decide +kernel

/-- One observation for ever, three actions of which the third has the smallest value: it is chosen again and again with the target
rate 1/10, and only finitely often with the target rate 0. -/
example : (∀ᵐ w ∂(rands.prod (ints 3)), ∃ run : Nat → List (List (Fin 3)),
      (∀ n, ∃ s', calls w.1 w.2 (fun _ => [![1, 2, 0]]) n (State.new 1 (1 / 10) 5) [] = .ok (s', run n)) ∧
      ∃ᶠ n in atTop, run (n + 1) = run n ++ [[2]]) ∧
    ∀ᵐ w ∂(rands.prod (ints 3)), ∃ run : Nat → List (List (Fin 3)),
      (∀ n, ∃ s', calls w.1 w.2 (fun _ => [![1, 2, 0]]) n (State.new 1 0 5) [] = .ok (s', run n)) ∧
      ∀ᶠ n in atTop, run (n + 1) = run n ++ [[1]] := by
  constructor
  · filter_upwards [C166 (s := State.new 1 (1 / 10) 5) (by norm_num [State.new]) (by norm_num [State.new]) (by norm_num [State.new])
      (fun _ => [![(1 : ℝ), 2, 0]]) (fun _ => [()]) (fun _ => rfl)] with w hw
    obtain ⟨run, h1, h2, h3⟩ := hw
    refine ⟨run, h1, (h3 () 2 (Filter.Frequently.of_forall fun _ => by simp)).mono ?_⟩
    rintro n ⟨as, hn, hm⟩
    obtain ⟨as', hn', hl⟩ := h2 n
    obtain rfl : as = as' := by simpa using hn.symm.trans hn'
    obtain ⟨a, rfl⟩ := List.length_eq_one_iff.1 hl
    simp only [List.zip_cons_cons, List.zip_nil_right, List.mem_singleton, Prod.mk.injEq, true_and] at hm
    rw [hn, ← hm]
  · filter_upwards [C166_ends (s := State.new 1 0 5) (by norm_num [State.new]) rfl (by norm_num [State.new])
      (fun _ => [![(1 : ℝ), 2, 0]]) (B := 1) (fun _ => rfl)] with w hw
    obtain ⟨run, h1, h2⟩ := hw
    refine ⟨run, h1, h2.mono ?_⟩
    rintro n ⟨as, hn, hl, hb⟩
    obtain ⟨a, rfl⟩ := List.length_eq_one_iff.1 hl
    have := hb _ a (List.mem_singleton.2 rfl) 1
    rw [hn]
    fin_cases a
    · norm_num at this
    · rfl
    · norm_num at this

end Ex

end learning

end Explore

end Verif.Props
