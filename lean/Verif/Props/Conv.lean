import Verif.Model.Conv
import Mathlib.Tactic.Linarith
import Mathlib.Data.List.Forall2

/-!
# Encoder output sizes (C88)
-/

namespace Verif

namespace Conv

theorem filter_range_le (m n : Nat) (f : Nat → Bool) (hf : ∀ i, f i = true ↔ i < m) (hmn : m ≤ n) :
    ((List.range n).filter f).length = m := by
  induction n with
  | zero => simp; omega
  | succ n ih =>
    rw [List.range_succ, List.filter_append, List.length_append]
    by_cases h : m ≤ n
    · have : f n = false := by
        rw [← Bool.not_eq_true, hf]; omega
      simp [List.filter, this, ih h]
    · have hm : m = n + 1 := by omega
      have : f n = true := by rw [hf]; omega
      have hall : (List.range n).filter f = List.range n := by
        rw [List.filter_eq_self]
        intro a ha
        rw [hf]
        have := List.mem_range.mp ha
        omega
      simp [List.filter, this, hall, hm]

/-- The formula counts the windows. -/
theorem windows_eq (l : Layer) (n : Nat) (hs : 0 < l.s) (hk : l.k ≤ n + 2 * l.p) :
    windows l n = (n + 2 * l.p - l.k) / l.s + 1 := by
  unfold windows
  apply filter_range_le
  · intro i
    rw [decide_eq_true_iff, Nat.lt_succ_iff, Nat.le_div_iff_mul_le hs]
    omega
  · have := Nat.div_le_self (n + 2 * l.p - l.k) l.s
    omega

theorem fdiv_eq (n k s p : Nat) (hk : k ≤ n + 2 * p) :
    Int.fdiv ((n : Int) - k + 2 * p) s + 1 = (((n + 2 * p - k) / s + 1 : Nat) : Int) := by
  have : ((n : Int) - k + 2 * p) = ((n + 2 * p - k : Nat) : Int) := by omega
  rw [this]
  simp [Int.fdiv_eq_ediv]

/-- Along one dimension. -/
def dims1 : List Layer → Nat → Except Err Nat
  | [], n => .ok n
  | l :: ls, n => if l.k ≤ n + 2 * l.p then dims1 ls (windows l n) else .error .runtimeError

theorem sizeLoop_dims1 (ls : List Layer) (hs : ∀ l ∈ ls, 0 < l.s) (n m : Nat) (h : dims1 ls n = .ok m) :
    sizeLoop (ls.map fun l => (l.k, l.s, l.p)) n = .ok (m : Int) := by
  induction ls generalizing n with
  | nil => simp only [dims1, Except.ok.injEq] at h; simp [sizeLoop, h]
  | cons l ls ih =>
    have h0 := hs l (by simp)
    simp only [dims1] at h
    by_cases hk : l.k ≤ n + 2 * l.p
    · rw [if_pos hk] at h
      simp only [List.map_cons, sizeLoop]
      rw [if_neg (by omega), fdiv_eq n l.k l.s l.p hk, ← windows_eq l n h0 hk]
      exact ih (fun l' hl' => hs l' (by simp [hl'])) _ h
    · rw [if_neg hk] at h; cases h

theorem applyAll_dims (ls : List Layer) (c : Nat) (dims y : List Nat) (h : applyAll ls (c :: dims) = .ok y) :
    ∃ ms, y = (ls.getLast?.map Layer.cout).getD c :: ms ∧ List.Forall₂ (fun n m => dims1 ls n = .ok m) dims ms := by
  induction ls generalizing c dims with
  | nil =>
    simp only [applyAll, Except.ok.injEq] at h
    refine ⟨dims, by simp [← h], ?_⟩
    induction dims generalizing y with
    | nil => exact .nil
    | cons d ds ih => exact .cons rfl (ih (c :: ds) rfl)
  | cons l ls ih =>
    simp only [applyAll, Layer.apply] at h
    by_cases hc : c = l.cin
    · by_cases hall : dims.all (fun n => decide (l.k ≤ n + 2 * l.p)) = true
      · simp only [hc, hall, if_true] at h
        obtain ⟨ms, hy, hms⟩ := ih _ _ h
        refine ⟨ms, ?_, ?_⟩
        · rw [hy]
          cases ls with
          | nil => simp
          | cons l' ls' =>
            rw [List.getLast?_cons_cons]
            cases hl : (l' :: ls').getLast? with
            | none => simp at hl
            | some x => rfl
        · simp only [List.forall₂_map_left_iff] at hms
          clear hy h ih
          induction dims generalizing ms with
          | nil => cases hms; exact .nil
          | cons d ds ih2 =>
            cases hms with
            | cons h1 h2 =>
              simp only [List.all_cons, Bool.and_eq_true, decide_eq_true_eq] at hall
              exact .cons (by simp only [dims1]; rw [if_pos hall.1]; exact h1) (ih2 hall.2 _ h2)
      · simp only [hc, hall, if_true] at h; cases h
    · simp only [hc, if_false] at h; cases h

theorem sizes_of (t : List (Nat × Nat × Nat)) (dims ms : List Nat)
    (h : List.Forall₂ (fun (n m : Nat) => sizeLoop t (n : Int) = .ok (m : Int)) dims ms) :
    sizes t dims = .ok (ms.map fun m : Nat => (m : Int)) := by
  induction h with
  | nil => rfl
  | cons h1 _ ih => simp only [sizes, h1, ih, List.map_cons]

theorem prod_cast (l : List Nat) : (l.map fun n : Nat => (n : Int)).prod = (l.prod : Int) := by
  induction l with
  | nil => rfl
  | cons a l ih => simp [ih]

theorem buildLayers_spec (c : Nat) (cs ks ss ps : List Nat) (ls : List Layer) (h : buildLayers c cs ks ss ps = .ok ls) :
    ls.map Layer.cout = cs ∧ ls.map (fun l => (l.k, l.s, l.p)) = (ks.zip (ss.zip ps)).take cs.length ∧
      cs.length ≤ ks.length ∧ cs.length ≤ ss.length ∧ cs.length ≤ ps.length := by
  induction cs generalizing c ks ss ps ls with
  | nil => simp only [buildLayers, Except.ok.injEq] at h; subst h; simp
  | cons c' cs ih =>
    cases ks with
    | nil => simp [buildLayers] at h
    | cons k ks =>
      cases ss with
      | nil => simp [buildLayers] at h
      | cons s ss =>
        cases ps with
        | nil => simp [buildLayers] at h
        | cons p ps =>
          simp only [buildLayers] at h
          cases hb : buildLayers c' cs ks ss ps with
          | error e => rw [hb] at h; cases h
          | ok ls' =>
            rw [hb] at h
            cases h
            obtain ⟨h1, h2, h3⟩ := ih _ _ _ _ _ hb
            simp [h1, h2, h3]

/-- torch's convolutions have positive strides. -/
def Encoder.Proper (e : Encoder) : Prop := ∀ s ∈ e.strides, 0 < s

/-- The reported size as a shape. -/
def Spec.Same (reported : List Int) (actual : List Nat) : Prop := reported = actual.map fun n : Nat => (n : Int)

/-- C88 as a user would put it: whenever the encoder accepts its input, the size it reports is the size it produces. -/
def C88_claim : Prop :=
  ∀ (e : Encoder) (y : List Nat), e.Proper → e.forward = .ok y → ∃ r, e.outputSize = .ok r ∧ Spec.Same r y

/-- C88 for encoders whose lists have the same length, at least one: whenever the encoder accepts its input, the size it reports
is the size it produces. -/
theorem C88_partial (e : Encoder) (y : List Nat) (hp : e.Proper) (hne : e.channels ≠ [])
    (hlen : e.kernels.length = e.channels.length ∨ e.strides.length = e.channels.length ∨ e.padding.length = e.channels.length)
    (h : e.forward = .ok y) : ∃ r, e.outputSize = .ok r ∧ Spec.Same r y := by
  unfold Encoder.forward Encoder.layers at h
  cases hc : e.cwh with
  | nil => rw [hc] at h; cases h
  | cons c dims =>
    rw [hc] at h
    simp only at h
    cases hb : buildLayers c e.channels e.kernels e.strides e.padding with
    | error err => rw [hb] at h; cases h
    | ok ls =>
      rw [hb] at h
      simp only at h
      cases ha : applyAll ls (c :: dims) with
      | error err => rw [ha] at h; cases h
      | ok x =>
        rw [ha] at h
        simp only [Except.ok.injEq] at h
        obtain ⟨h1, h2, h3, h4, h5⟩ := buildLayers_spec _ _ _ _ _ _ hb
        obtain ⟨ms, hx, hms⟩ := applyAll_dims ls c dims x ha
        have hz : e.zipped = ls.map (fun l => (l.k, l.s, l.p)) := by
          rw [h2]
          unfold Encoder.zipped
          rw [List.take_of_length_le]
          simp only [List.length_zip]
          omega
        have hpos : ∀ l ∈ ls, 0 < l.s := by
          intro l hl
          have : (l.k, l.s, l.p) ∈ e.zipped := by rw [hz]; exact List.mem_map_of_mem hl
          exact hp _ (List.of_mem_zip (List.of_mem_zip this).2).1
        have hs : sizes e.zipped e.cwh.tail = .ok (ms.map fun m : Nat => (m : Int)) := by
          rw [hc, hz]
          apply sizes_of
          exact hms.imp fun n m hnm => sizeLoop_dims1 ls hpos n m hnm
        obtain ⟨cl, hcl⟩ : ∃ cl, e.channels.getLast? = some cl := by
          cases hg : e.channels.getLast? with
          | none => exact absurd (List.getLast?_eq_none_iff.mp hg) hne
          | some cl => exact ⟨cl, rfl⟩
        have hx' : x = cl :: ms := by
          rw [hx, ← List.getLast?_map, h1, hcl]; rfl
        unfold Encoder.outputSize
        rw [hs, hcl]
        refine ⟨_, rfl, ?_⟩
        unfold Spec.Same
        rw [← h, hx']
        by_cases hf : e.flatten = true
        · simp [hf, prod_cast]
        · simp [hf]

/-- C88 as a user would put it is false: lists longer than `channels` are accepted, the layers ignore the further entries, the
reported size does not. -/
theorem C88_false : ¬ C88_claim := by
  intro h
  obtain ⟨r, hr, hs⟩ := h ⟨[10, 3], [4], [3, 3], [1, 1], [0, 0], true, false⟩ [4, 8]
    (by intro s hs; simp at hs; omega) (by decide +kernel)
  have : r = [4, 6] := by
    have e : Encoder.outputSize ⟨[10, 3], [4], [3, 3], [1, 1], [0, 0], true, false⟩ = .ok [4, 6] := by decide +kernel
    rw [e] at hr
    exact (Except.ok.inj hr).symm
  rw [this] at hs
  revert hs
  unfold Spec.Same
  decide

/-- A concrete case: the usual three layers on 84×84 images. -/
example : Encoder.forward ⟨[84, 84, 3], [32, 64, 64], [8, 4, 3], [4, 2, 1], [0, 0, 0], true, true⟩ = .ok [3136] ∧
    Encoder.outputSize ⟨[84, 84, 3], [32, 64, 64], [8, 4, 3], [4, 2, 1], [0, 0, 0], true, true⟩ = .ok [3136] := by
  decide +kernel

/-- A concrete case: the input is too small for the kernel; the convolution raises, the reported size is not positive. -/
example : Encoder.forward ⟨[3, 1], [4], [5], [1], [0], true, false⟩ = .error .runtimeError ∧
    Encoder.outputSize ⟨[3, 1], [4], [5], [1], [0], true, false⟩ = .ok [4, -1] := by
  decide +kernel

end Conv

end Verif
