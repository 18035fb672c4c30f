import Verif.Model.CurlRun
import Verif.Props.Curl
import Verif.Props.LossStep
import Verif.Props.Checkpoint

/-!
# A batch of CURL (C133, C134, C135)
-/

namespace Verif

namespace CurlRun

open Curl LossStep

/-! ## Specification -/

namespace Spec

variable {γ : Type}

/-- `after` is an augmented version of the batch `before`: noise is added to all images or to none, and a rectangle is cut
out of each. -/
def Augmented (g : Augmentor) (noise : Nat → Image γ) (before after : Nat → Image γ) : Prop :=
  ∃ n : Nat → Image γ, (n = noise ∧ g.noise = true ∨ n = fun _ _ _ _ => 0) ∧
    ∀ i < g.batch, CutOut g.min g.max g.imX g.imY (fun x y c => before i x y c + n i x y c) (after i)

/-- The sizes of masks are shares of the size of an image, and an image is not empty. -/
def Sensible (g : Augmentor) : Prop := 0 ≤ g.min ∧ g.min ≤ g.max ∧ g.max < 1 ∧ 1 ≤ g.imX ∧ 1 ≤ g.imY

/-- Uniform random numbers are in `[0, 1)`. -/
def Fair (d : Draws γ) : Prop := ∀ i, 0 ≤ d.rnd i ∧ d.rnd i < 1

end Spec

/-! ## Lemmas -/

section

variable {γ : Type}

/-- What a loop over images `i` to `i + k - 1` of tensor `t` does to the store. -/
def Loop (R : Image γ → Image γ → Prop) (t i k : Nat) (s s' : Store γ) : Prop :=
  s'.next = s.next ∧ (∀ t', t' ≠ t → s'.data t' = s.data t') ∧
    ∀ j, if i ≤ j ∧ j < i + k then R (s.data t j) (s'.data t j) else s'.data t j = s.data t j

theorem Loop.zero (R : Image γ → Image γ → Prop) (t i : Nat) (s : Store γ) : Loop R t i 0 s s := by
  refine ⟨rfl, fun _ _ => rfl, fun j => ?_⟩
  rw [if_neg (by omega)]

theorem Loop.succ {R : Image γ → Image γ → Prop} {t i k : Nat} {s s' : Store γ} {x : Image γ} (h : R (s.data t i) x)
    (hl : Loop R t (i + 1) k (s.write t i x) s') : Loop R t i (k + 1) s s' := by
  obtain ⟨h1, h2, h3⟩ := hl
  refine ⟨h1, fun t' ht => ?_, fun j => ?_⟩
  · rw [h2 t' ht, Store.write]
    exact Function.update_of_ne ht _ _
  · have h4 := h3 j
    have e : (s.write t i x).data t = Function.update (s.data t) i x := by
      rw [Store.write]
      exact Function.update_self _ _ _
    rw [e] at h4
    by_cases hj : j = i
    · subst hj
      rw [if_neg (by omega), Function.update_self] at h4
      rw [if_pos (by omega), h4]
      exact h
    · rw [Function.update_of_ne hj] at h4
      by_cases hk : i + 1 ≤ j ∧ j < i + 1 + k
      · rw [if_pos hk] at h4
        rw [if_pos (by omega)]
        exact h4
      · rw [if_neg hk] at h4
        rw [if_neg (by omega)]
        exact h4

theorem cut_cutOut {min max : ℝ} {imX imY : Nat} {r : (Nat × Nat) × (Nat × Nat)} (h : Inside min max imX imY r)
    (im : Image γ) : CutOut min max imX imY im (cut r im) := by
  refine ⟨r, h, ?_, ?_⟩
  · intro x y c k1 k2 k3 k4
    simp only [cut, k1, k2, k3, k4, and_self, if_true]
  · intro x y c k
    simp only [cut, k, if_false]

theorem mask_ok {g : Augmentor} {d : Draws γ} (hg : Spec.Sensible g) (hd : Spec.Fair d) (i a b : Nat) :
    ∃ r, maskIndices g.min g.max g.imX g.imY (d.rnd i) a b = .ok r ∧ Inside g.min g.max g.imX g.imY r := by
  obtain ⟨h0, h, h1, hx, hy⟩ := hg
  obtain ⟨r, e1, e2, -, -⟩ := maskIndices_ok a b h h0 h1 hx hy (hd i).1 (hd i).2
  exact ⟨r, e1, e2⟩

theorem cutImages_ok {g : Augmentor} {d : Draws γ} (hg : Spec.Sensible g) (hd : Spec.Fair d) (t : Nat) :
    ∀ (k i : Nat) (s : Store γ), ∃ s', cutImages g d t i k s = (s', .ok ()) ∧
      Loop (CutOut g.min g.max g.imX g.imY) t i k s s' := by
  intro k
  induction k with
  | zero => intro i s; exact ⟨s, rfl, Loop.zero _ _ _ _⟩
  | succ k ih =>
    intro i s
    obtain ⟨r, e1, e2⟩ := mask_ok hg hd i (d.a i) (d.b i)
    obtain ⟨s', f1, f2⟩ := ih (i + 1) (s.write t i (cut r (s.data t i)))
    exact ⟨s', by simp only [cutImages, e1, f1], f2.succ (cut_cutOut e2 _)⟩

theorem cutAt_ok {g : Augmentor} {d : Draws γ} (hg : Spec.Sensible g) (hd : Spec.Fair d) (t : Nat) :
    ∀ (k i : Nat) (s : Store γ), ∃ s', cutAt g d t i k s = (s', .ok ()) ∧
      Loop (CutOut g.min g.max g.imX g.imY) t i k s s' := by
  intro k
  induction k with
  | zero => intro i s; exact ⟨s, rfl, Loop.zero _ _ _ _⟩
  | succ k ih =>
    intro i s
    obtain ⟨r, e1, e2⟩ := mask_ok hg hd 0 (d.a i) (d.b i)
    obtain ⟨s', f1, f2⟩ := ih (i + 1) (s.write t i (cut r (s.data t i)))
    exact ⟨s', by simp only [cutAt, e1, f1], f2.succ (cut_cutOut e2 _)⟩

theorem cutAll_ok {g : Augmentor} {r : (Nat × Nat) × (Nat × Nat)} (hr : Inside g.min g.max g.imX g.imY r) (t : Nat) :
    ∀ (k i : Nat) (s : Store γ), Loop (CutOut g.min g.max g.imX g.imY) t i k s (cutAll r t i k s) := by
  intro k
  induction k with
  | zero => intro i s; exact Loop.zero _ _ _ _
  | succ k ih => intro i s; exact (ih (i + 1) _).succ (cut_cutOut hr _)

theorem cutoutInPlace_ok {g : Augmentor} {d : Draws γ} (hg : Spec.Sensible g) (hd : Spec.Fair d) (t : Nat) (s : Store γ) :
    ∃ s', cutoutInPlace g d t s = (s', .ok ()) ∧ Loop (CutOut g.min g.max g.imX g.imY) t 0 g.batch s s' := by
  obtain ⟨r, e1, e2⟩ := mask_ok hg hd 0 (d.a 0) (d.b 0)
  unfold cutoutInPlace
  cases g.mode with
  | fast => exact ⟨_, by simp only [e1], cutAll_ok e2 t _ _ _⟩
  | perBatch => simp only [e1]; exact cutAt_ok hg hd t _ _ _
  | perImage => exact cutImages_ok hg hd t _ _ _

/-- A store that has kept all tensors but `t`. -/
def Keeps (t : Nat) (s s' : Store γ) : Prop := s.next ≤ s'.next ∧ ∀ t', t' ≠ t → t' < s.next → s'.data t' = s.data t'

theorem write_keeps (t i : Nat) (x : Image γ) (s : Store γ) : Keeps t s (s.write t i x) :=
  ⟨le_rfl, fun _ h _ => Function.update_of_ne h _ _⟩

theorem Keeps.trans {t : Nat} {s s' s'' : Store γ} (h : Keeps t s s') (h' : Keeps t s' s'') : Keeps t s s'' :=
  ⟨h.1.trans h'.1, fun t' e l => (h'.2 t' e (lt_of_lt_of_le l h.1)).trans (h.2 t' e l)⟩

theorem Keeps.rfl' (t : Nat) (s : Store γ) : Keeps t s s := ⟨le_rfl, fun _ _ _ => rfl⟩

theorem cutImages_keeps (g : Augmentor) (d : Draws γ) (t : Nat) :
    ∀ (k i : Nat) (s : Store γ), Keeps t s (cutImages g d t i k s).1 := by
  intro k
  induction k with
  | zero => intro i s; exact Keeps.rfl' _ _
  | succ k ih =>
    intro i s
    unfold cutImages
    split
    · exact Keeps.rfl' _ _
    · exact (write_keeps _ _ _ _).trans (ih _ _)

theorem cutAt_keeps (g : Augmentor) (d : Draws γ) (t : Nat) :
    ∀ (k i : Nat) (s : Store γ), Keeps t s (cutAt g d t i k s).1 := by
  intro k
  induction k with
  | zero => intro i s; exact Keeps.rfl' _ _
  | succ k ih =>
    intro i s
    unfold cutAt
    split
    · exact Keeps.rfl' _ _
    · exact (write_keeps _ _ _ _).trans (ih _ _)

theorem cutAll_keeps (r : (Nat × Nat) × (Nat × Nat)) (t : Nat) :
    ∀ (k i : Nat) (s : Store γ), Keeps t s (cutAll r t i k s) := by
  intro k
  induction k with
  | zero => intro i s; exact Keeps.rfl' _ _
  | succ k ih => intro i s; exact (write_keeps _ _ _ _).trans (ih _ _)

theorem cutoutInPlace_keeps (g : Augmentor) (d : Draws γ) (t : Nat) (s : Store γ) :
    Keeps t s (cutoutInPlace g d t s).1 := by
  unfold cutoutInPlace
  split
  · split
    · exact Keeps.rfl' _ _
    · exact cutAll_keeps _ _ _ _ _
  · split
    · exact Keeps.rfl' _ _
    · exact cutAt_keeps _ _ _ _ _ _
  · exact cutImages_keeps _ _ _ _ _ _

theorem alloc_data (s : Store γ) (x : Nat → Image γ) : (s.alloc x).1.data s.next = x := Function.update_self _ _ _

theorem alloc_keeps (t : Nat) (s : Store γ) (x : Nat → Image γ) : Keeps t s (s.alloc x).1 :=
  ⟨Nat.le_succ _, fun _ _ l => Function.update_of_ne (Nat.ne_of_lt l) _ _⟩

/-- The noise does not change a tensor that exists. -/
theorem noise_spec (g : Augmentor) (d : Draws γ) (t : Nat) (s : Store γ) (ht : t < s.next) :
    ∃ s' t', (if g.noise then maybeAddNoise d t s else (s, t)) = (s', t') ∧ s.next ≤ s'.next ∧
      (∀ u, u < s.next → s'.data u = s.data u) ∧ t' < s'.next ∧ (t' = t ∨ s.next ≤ t') ∧
      ∃ n : Nat → Image γ, (n = d.noise ∧ g.noise = true ∨ n = fun _ _ _ _ => 0) ∧
        s'.data t' = fun i x y c => s.data t i x y c + n i x y c := by
  have same : ∃ n : Nat → Image γ, (n = d.noise ∧ g.noise = true ∨ n = fun _ _ _ _ => 0) ∧
      s.data t = fun i x y c => s.data t i x y c + n i x y c :=
    ⟨fun _ _ _ _ => 0, .inr rfl, by funext i x y c; simp⟩
  by_cases hn : g.noise
  · rw [if_pos hn]
    unfold maybeAddNoise
    split
    · refine ⟨_, _, rfl, Nat.le_succ _, fun u hu => Function.update_of_ne (Nat.ne_of_lt hu) _ _, Nat.lt_succ_self _,
        .inr le_rfl, d.noise, .inl ⟨rfl, hn⟩, Function.update_self _ _ _⟩
    · exact ⟨_, _, rfl, le_rfl, fun _ _ => rfl, ht, .inl rfl, same⟩
  · rw [if_neg hn]
    exact ⟨_, _, rfl, le_rfl, fun _ _ => rfl, ht, .inl rfl, same⟩

theorem augment_keeps (g : Augmentor) (d : Draws γ) (t : Nat) (s : Store γ) (ht : t < s.next) :
    Keeps t s (augment g d t s).1 := by
  obtain ⟨s', t', e, h1, h2, -, h4, -⟩ := noise_spec g d t s ht
  have hk := cutoutInPlace_keeps g d t' s'
  unfold augment
  rw [e]
  simp only
  have : Keeps t s (cutoutInPlace g d t' s').1 := by
    refine ⟨h1.trans hk.1, fun u hu l => ?_⟩
    rw [hk.2 u (by omega) (by omega), h2 u l]
  split <;> rename_i x <;> rw [x] at this <;> exact this

theorem augment_ok {g : Augmentor} {d : Draws γ} (hg : Spec.Sensible g) (hd : Spec.Fair d) (t : Nat) (s : Store γ)
    (ht : t < s.next) : ∃ s' t', augment g d t s = (s', .ok t') ∧ t' < s'.next ∧ (t' = t ∨ s.next ≤ t') ∧
      Spec.Augmented g d.noise (s.data t) (s'.data t') := by
  obtain ⟨s1, t1, e, h1, h2, h3, h4, n, h5, h6⟩ := noise_spec g d t s ht
  obtain ⟨s2, e2, k1, k2, k3⟩ := cutoutInPlace_ok hg hd t1 s1
  refine ⟨s2, t1, by unfold augment; rw [e]; simp only [e2], by rw [k1]; exact h3, h4, n, h5, fun i hi => ?_⟩
  have := k3 i
  rw [if_pos (by omega), h6] at this
  exact this

end

section

variable {γ P S : Type} [DecidableEq P]

omit [DecidableEq P] in
theorem cloneAugment_keeps (c : Cfg γ P S) (d : Draws γ) (t : Nat) (s : Store γ) :
    s.next ≤ (cloneAugment c d t s).1.next ∧ ∀ u < s.next, (cloneAugment c d t s).1.data u = s.data u := by
  have h := augment_keeps c.augmentor d s.next (s.alloc (s.data t)).1 (Nat.lt_succ_self _)
  have h' := alloc_keeps s.next s (s.data t)
  exact ⟨h'.1.trans h.1, fun u hu => (h'.trans h).2 u (Nat.ne_of_lt hu) hu⟩

omit [DecidableEq P] in
theorem cloneAugment_ok (c : Cfg γ P S) {d : Draws γ} (hg : Spec.Sensible c.augmentor) (hd : Spec.Fair d) (t : Nat)
    (s : Store γ) : ∃ s' t', cloneAugment c d t s = (s', .ok t') ∧ s.next ≤ t' ∧ t' < s'.next ∧
      Spec.Augmented c.augmentor d.noise (s.data t) (s'.data t') := by
  obtain ⟨s', t', e, h1, h2, h3⟩ := augment_ok hg hd s.next (s.alloc (s.data t)).1 (Nat.lt_succ_self _)
  rw [alloc_data] at h3
  refine ⟨s', t', e, ?_, h1, h3⟩
  have : (s.alloc (s.data t)).1.next = s.next + 1 := rfl
  omega

omit [DecidableEq P] in
theorem second_keeps (c : Cfg γ P S) (d : Draws γ) (t : Nat) (s : Store γ) :
    s.next ≤ (second c d t s).1.next ∧ ∀ u < s.next, (second c d t s).1.data u = s.data u := by
  unfold second
  split
  · exact cloneAugment_keeps c d t s
  · have h' := alloc_keeps s.next s (s.data t)
    exact ⟨h'.1, fun u hu => h'.2 u (Nat.ne_of_lt hu) hu⟩

omit [DecidableEq P] in
theorem second_ok (c : Cfg γ P S) {d : Draws γ} (hg : Spec.Sensible c.augmentor) (hd : Spec.Fair d) (t : Nat)
    (s : Store γ) : ∃ s' t', second c d t s = (s', .ok t') ∧
      if c.augmentBoth then Spec.Augmented c.augmentor d.noise (s.data t) (s'.data t') else s'.data t' = s.data t := by
  unfold second
  by_cases h : c.augmentBoth
  · obtain ⟨s', t', e, _, _, h3⟩ := cloneAugment_ok c hg hd t s
    exact ⟨s', t', by rw [if_pos h, e], by rw [if_pos h]; exact h3⟩
  · exact ⟨_, _, by rw [if_neg h], by rw [if_neg h]; exact alloc_data _ _⟩

/-- The loss callback that has the same parts. -/
noncomputable def generic (c : Cfg γ P S) (h : 0 < c.augmentor.batch) :
    LossStep.Cfg P S ((Nat → Image γ) × (Nat → Image γ)) :=
  haveI : Nonempty (Fin c.augmentor.batch) := ⟨⟨0, h⟩⟩
  { name := "curl", own := c.own, maxNorm := c.maxNorm, deriv := c.deriv, step := c.step, rate := c.rate
    loss := fun b w => Curl.loss (B := Fin c.augmentor.batch) (Z := Fin c.desired) (fun i k => c.encode w (b.1 i) k)
        (fun i k => c.target w (b.2 i) k) (fun k l => c.bilinear w k l) c.temperature }

/-! ## C133 -/

/-- **C133.** Whatever happens, and also if it raises, a batch of CURL changes no tensor that was there before: not the
images of the batch, which other losses use, and no others. -/
theorem C133_untouched (c : Cfg γ P S) (d1 d2 : Draws γ) (t : Nat) (s : State γ P S) :
    ∀ u < s.store.next, (backward c d1 d2 t s).1.store.data u = s.store.data u := by
  intro u hu
  obtain ⟨h1, h2⟩ := cloneAugment_keeps c d1 t s.store
  unfold backward
  split
  · rename_i st e he
    rw [he] at h2
    exact h2 u hu
  · rename_i st t1 he
    rw [he] at h1 h2
    obtain ⟨k1, k2⟩ := second_keeps c d2 t st
    split
    · rename_i st' e he'
      rw [he'] at k2
      exact (k2 u (lt_of_lt_of_le hu h1)).trans (h2 u hu)
    · rename_i st' t2 he'
      rw [he'] at k2
      have hu' := (k2 u (lt_of_lt_of_le hu h1)).trans (h2 u hu)
      simp only
      split
      · exact hu'
      · exact hu'
      · unfold logImages
        split <;> exact hu'

/-- The shape of a successful batch. -/
theorem backward_ok (c : Cfg γ P S) {d1 d2 : Draws γ} (hg : Spec.Sensible c.augmentor) (h1 : Spec.Fair d1)
    (h2 : Spec.Fair d2) (hb : 0 < c.augmentor.batch) (hz : c.useProjection = true ∨ c.encoderSize = c.desired) {t : Nat}
    (s : State γ P S) (ht : t < s.store.next) :
    ∃ (st : Store γ) (t1 t2 : Nat), (∀ u < s.store.next, st.data u = s.store.data u) ∧
      Spec.Augmented c.augmentor d1.noise (s.store.data t) (st.data t1) ∧
      (if c.augmentBoth then Spec.Augmented c.augmentor d2.noise (s.store.data t) (st.data t2)
        else st.data t2 = s.store.data t) ∧
      backward c d1 d2 t s = (logImages c t t1 t2 { s with
        store := st
        world := (LossStep.backward (generic c hb) (st.data t1, st.data t2) s.loss s.world).2
        loss := (LossStep.backward (generic c hb) (st.data t1, st.data t2) s.loss s.world).1 }, .ok ()) := by
  obtain ⟨st1, t1, e1, l1, l1', a1⟩ := cloneAugment_ok c hg h1 t s.store
  obtain ⟨st2, t2, e2, a2⟩ := second_ok c hg h2 t st1
  have k1 := cloneAugment_keeps c d1 t s.store
  rw [e1] at k1
  have k2 := second_keeps c d2 t st1
  rw [e2] at k2
  have et : st1.data t = s.store.data t := k1.2 t ht
  have et1 : st2.data t1 = st1.data t1 := k2.2 t1 l1'
  rw [et] at a2
  refine ⟨st2, t1, t2, fun u hu => (k2.2 u (lt_of_lt_of_le hu k1.1)).trans (k1.2 u hu), by rw [et1]; exact a1, a2, ?_⟩
  have hd : zdim c.useProjection c.encoderSize c.desired = wdim c.desired := by
    unfold zdim wdim
    split
    · rfl
    · rename_i h
      rcases hz with hz | hz
      · exact absurd hz h
      · exact hz
  have hl : lossOf c (st2.data t1) (st2.data t2) s.world.value =
      .ok (some ((generic c hb).loss (st2.data t1, st2.data t2) s.world.value)) := by
    unfold lossOf
    rw [if_pos hd, dif_pos hb]
    rfl
  unfold backward
  simp only [e1, e2, hl]
  rfl

/-- **C133.** A batch makes one step for the contrastive loss of two versions of its images: an augmented one, for the
encoder, and a second one, augmented independently or as it is. The optimizer sees the shortened derivatives of that loss;
only the encoder and the matrix change, so the target encoder does not. -/
theorem C133_step (c : Cfg γ P S) {d1 d2 : Draws γ} (hg : Spec.Sensible c.augmentor) (h1 : Spec.Fair d1)
    (h2 : Spec.Fair d2) (hb : 0 < c.augmentor.batch) (hz : c.useProjection = true ∨ c.encoderSize = c.desired) {t : Nat}
    (s : State γ P S) (ht : t < s.store.next) (hm : 0 < c.maxNorm) (hn : c.own.Nodup)
    (hl : ∀ o r l, (c.step o r l).2.length = l.length) :
    ∃ x y, Spec.Augmented c.augmentor d1.noise (s.store.data t) x ∧
      (if c.augmentBoth then Spec.Augmented c.augmentor d2.noise (s.store.data t) y else y = s.store.data t) ∧
      ∃ s', backward c d1 d2 t s = (s', .ok ()) ∧
        (∃ g, LossStep.Spec.Shortened c.own c.maxNorm (c.deriv (x, y) s.world.value) g ∧
          let answer := c.step s.loss.opt (c.rate s.loss.steps) (c.own.map fun p => (s.world.value p, g p))
          s'.loss.opt = answer.1 ∧ s'.loss.steps = s.loss.steps + 1 ∧ c.own.map s'.world.value = answer.2) ∧
        (∀ p, p ∉ c.own → s'.world.value p = s.world.value p) ∧
        (∀ τ, c.temperature = some τ → s'.loss.logs.get? "loss/curl_loss" =
          some (infoNCE fun i j : Fin c.augmentor.batch =>
            similarity (fun (i : Fin c.augmentor.batch) (k : Fin c.desired) => c.encode s.world.value (x i) k)
            (fun i k => c.target s.world.value (y i) k) (fun k l => c.bilinear s.world.value k l) i j / τ)) ∧
        (c.logImages = true → s'.images.get? "augmentations/base_allch" = some (s.store.data t 0) ∧
          s'.images.get? "augmentations/image1_allch" = some (x 0) ∧
          s'.images.get? "augmentations/image2_allch" = some (y 0)) := by
  obtain ⟨st, t1, t2, k, a1, a2, e⟩ := backward_ok c hg h1 h2 hb hz s ht
  obtain ⟨g, g1, g2, g3, g4, g5⟩ := C110_step (generic c hb) (st.data t1, st.data t2) s.loss s.world hm hn hl
  refine ⟨st.data t1, st.data t2, a1, a2, _, e, ?_⟩
  have f1 : ∀ z, (logImages c t t1 t2 z).loss = z.loss := fun z => by unfold logImages; split <;> rfl
  have f2 : ∀ z, (logImages c t t1 t2 z).world = z.world := fun z => by unfold logImages; split <;> rfl
  rw [f1, f2]
  refine ⟨⟨g, g1, g2, g3, g4⟩, g5, fun τ hτ => ?_, fun hi => ?_⟩
  · have : Nonempty (Fin c.augmentor.batch) := ⟨⟨0, hb⟩⟩
    have hv : (generic c hb).loss (st.data t1, st.data t2) s.world.value = infoNCE fun i j : Fin c.augmentor.batch =>
        similarity (fun (i : Fin c.augmentor.batch) (k : Fin c.desired) => c.encode s.world.value (st.data t1 i) k)
          (fun i k => c.target s.world.value (st.data t2 i) k) (fun k l => c.bilinear s.world.value k l) i j / τ := by
      rw [← C109_partial]
      simp only [generic, hτ]
    rw [← hv]
    simp only [LossStep.backward, Dict.get?_set]
    rw [if_neg (by simp only [generic]; decide +kernel), if_pos (by simp only [generic]; decide +kernel)]
  · unfold logImages
    rw [if_pos hi]
    simp only [Dict.get?_set]
    refine ⟨?_, ?_, ?_⟩
    · rw [if_neg (by decide +kernel), if_neg (by decide +kernel), if_pos trivial, k t ht]
    · rw [if_neg (by decide +kernel), if_pos trivial]
    · rw [if_pos trivial]

/-! ## C134: the sizes -/

/-- **C134**, what the documentation says: without a projection layer `desired_zdim` is ignored. -/
def C134_claim (γ P S : Type) [DecidableEq P] : Prop :=
  ∀ (c : Cfg γ P S) (n : Nat) (d1 d2 : Draws γ) (t : Nat) (s : State γ P S), c.useProjection = false →
    (backward { c with desired := n } d1 d2 t s).2 = (backward c d1 d2 t s).2

/-- **C134, partial.** With a projection layer a batch succeeds for every `desired_zdim` and every size of the encoder;
without one if `desired_zdim` is the size of the encoder. Missing: other sizes, `C134_mismatch`. -/
theorem C134_partial (c : Cfg γ P S) {d1 d2 : Draws γ} (hg : Spec.Sensible c.augmentor) (h1 : Spec.Fair d1)
    (h2 : Spec.Fair d2) (hb : 0 < c.augmentor.batch) {t : Nat} (s : State γ P S) (ht : t < s.store.next)
    (hz : c.useProjection = true ∨ c.encoderSize = c.desired) : (backward c d1 d2 t s).2 = .ok () := by
  obtain ⟨_, _, _, _, _, _, e⟩ := backward_ok c hg h1 h2 hb hz s ht
  rw [e]

/-- **C134.** Without a projection layer every batch raises, unless `desired_zdim` is the size of the encoder, and no
parameter ever changes. -/
theorem C134_mismatch (c : Cfg γ P S) {d1 d2 : Draws γ} (hg : Spec.Sensible c.augmentor) (h1 : Spec.Fair d1)
    (h2 : Spec.Fair d2) {t : Nat} (s : State γ P S) (hp : c.useProjection = false) (hz : c.encoderSize ≠ c.desired) :
    (backward c d1 d2 t s).2 = .error .runtimeError ∧ (backward c d1 d2 t s).1.world.value = s.world.value ∧
      (backward c d1 d2 t s).1.loss = s.loss := by
  obtain ⟨st1, t1, e1, -, -, -⟩ := cloneAugment_ok c hg h1 t s.store
  obtain ⟨st2, t2, e2, -⟩ := second_ok c hg h2 t st1
  have hl : lossOf c (st2.data t1) (st2.data t2) s.world.value = .error .runtimeError := by
    unfold lossOf
    rw [if_neg]
    simp only [zdim, wdim, hp, Bool.false_eq_true, if_false]
    exact hz
  unfold backward
  simp only [e1, e2, hl, and_self]

/-! ## C135: checkpoints -/

section

variable {E J M O L : Type}

/-- The encoders that are part of other networks are saved with those; the caller restores them. -/
def Spec.sameEncoders (a b : Cb E J M O L) : Prop := a.encoder = b.encoder ∧ a.targetEncoder = b.targetEncoder

/-- **C135**, the claim: a CURL loss that is built again, with the same encoders, and loaded from the state of another one
computes the same losses. `loss` is any function of all that it computes with. -/
def C135_claim (E J M O L : Type) : Prop :=
  ∀ (loss : E → E → Option J → Option J → M → ℝ) (c fresh : Cb E J M O L), Spec.sameEncoders c fresh →
    c.base.network = none → fresh.base.network = none → fresh.base.logs.windowed = [] →
    let r := (fresh.loadStateDict c.stateDict ⟨true, true, true⟩).1
    loss r.encoder r.targetEncoder r.proj r.targetProj r.matrix =
      loss c.encoder c.targetEncoder c.proj c.targetProj c.matrix

/-- **C135, partial.** Loading succeeds and brings the state of the optimizer back. Missing: the matrix and both projection
layers, which are in no state dict; they stay what the constructor drew. -/
theorem C135_partial (c fresh : Cb E J M O L) (h : c.base.network = none) (h' : fresh.base.network = none)
    (hw : fresh.base.logs.windowed = []) :
    (fresh.loadStateDict c.stateDict ⟨true, true, true⟩).2 = .ok () ∧
      (fresh.loadStateDict c.stateDict ⟨true, true, true⟩).1.base.optimizer = c.base.optimizer ∧
      (fresh.loadStateDict c.stateDict ⟨true, true, true⟩).1.matrix = fresh.matrix ∧
      (fresh.loadStateDict c.stateDict ⟨true, true, true⟩).1.proj = fresh.proj ∧
      (fresh.loadStateDict c.stateDict ⟨true, true, true⟩).1.targetProj = fresh.targetProj := by
  obtain ⟨-, h2, h3⟩ := C82_partial c.base fresh.base (by rw [h, h'])
  refine ⟨?_, h2, rfl, rfl, rfl⟩
  have := h3 hw
  simp only [Cb.loadStateDict, Cb.stateDict, Res.lift]
  exact this

/-- **C135.** No way of loading could bring the matrix or a projection layer back: for any of them there is a value for which what is
saved leads to another one. -/
theorem C135_lost [Nontrivial M] [Nonempty J] (c : Cb E J M O L) (matrix : LossSaved Unit O → M) (proj : LossSaved Unit O → Option J) :
    (∃ m, matrix ({ c with matrix := m } : Cb E J M O L).stateDict ≠ m) ∧
      (∃ p, proj ({ c with proj := p } : Cb E J M O L).stateDict ≠ p) ∧
      ∃ p, proj ({ c with targetProj := p } : Cb E J M O L).stateDict ≠ p := by
  have hm : ∃ m, m ≠ matrix c.stateDict := exists_ne _
  have hp : ∃ p, p ≠ proj c.stateDict := exists_ne _
  obtain ⟨m, hm⟩ := hm
  obtain ⟨p, hp⟩ := hp
  exact ⟨⟨m, hm.symm⟩, ⟨p, hp.symm⟩, ⟨p, hp.symm⟩⟩

end

end

/-! ## Examples -/

namespace Ex

/-- Two images of three by three points with one channel; half of each side may be cut out. -/
noncomputable def augmentor (noise : Bool) (mode : Mode) : Augmentor := ⟨noise, mode, 1 / 3, 1 / 2, 2, 3, 3⟩

theorem sensible (noise : Bool) (mode : Mode) : Spec.Sensible (augmentor noise mode) := by
  refine ⟨?_, ?_, ?_, ?_, ?_⟩ <;> norm_num [augmentor]

noncomputable def draws (p : ℝ) : Draws Unit := ⟨p, fun _ _ _ _ => 1 / 100, fun _ => 1 / 2, fun i => i, fun _ => 1⟩

theorem fair (p : ℝ) : Spec.Fair (draws p) := fun _ => by constructor <;> norm_num [draws]

/-- One parameter is the encoder's (0), one the target's (1), one is the matrix (2). -/
noncomputable def cfg (noise : Bool) (mode : Mode) (both proj : Bool) (size desired : Nat) : Cfg Unit Nat Unit where
  augmentor := augmentor noise mode
  augmentBoth := both
  logImages := true
  useProjection := proj
  encoderSize := size
  desired := desired
  temperature := some (1 / 10)
  encode := fun w x k => w 0 * x k k ()
  target := fun w x k => w 1 * x k k ()
  bilinear := fun w _ _ => w 2
  own := [0, 2]
  maxNorm := 1
  deriv := fun _ w _ => some (w 0)
  step := fun _ r l => ((), l.map fun x => match x.2 with
    | some g => x.1 - r * g
    | none => x.1)
  rate := fun _ => 1 / 2

def start : State Unit Nat Unit := ⟨⟨fun _ _ _ _ _ => 1, 1⟩, ⟨fun _ => 3, fun _ => none⟩, ⟨(), 0, []⟩, []⟩

example : ∀ u < 1, (backward (cfg true .perImage true true 5 7) (draws 0) (draws (1 / 2)) 0 start).1.store.data u =
    start.store.data u :=
  C133_untouched _ _ _ _ start

example : ∃ x y, Spec.Augmented (augmentor true .fast) (draws 0).noise (start.store.data 0) x ∧ y = start.store.data 0 ∧
    ∃ s', backward (cfg true .fast false true 5 7) (draws 0) (draws 0) 0 start = (s', .ok ()) ∧
      s'.world.value 1 = 3 ∧ s'.loss.steps = 1 ∧
      s'.images.get? "augmentations/image1_allch" = some (x 0) := by
  obtain ⟨x, y, h1, h2, s', h3, ⟨g, -, -, h4, -⟩, h5, -, h6⟩ := C133_step (cfg true .fast false true 5 7) (sensible _ _)
    (fair 0) (fair 0) (by decide) (.inl rfl) start (t := 0) (by decide) (by norm_num [cfg]) (by simp [cfg])
    (fun _ _ _ => by simp [cfg])
  exact ⟨x, y, h1, h2, s', h3, h5 1 (by simp [cfg]), h4, (h6 rfl).2.1⟩

example : (backward (cfg false .perBatch true false 5 128) (draws 0) (draws 0) 0 start).2 = .error .runtimeError :=
  (C134_mismatch _ (sensible _ _) (fair 0) (fair 0) start rfl (by decide)).1

def cb (m : Nat) (o : Nat) : Cb Unit Nat Nat Nat Unit := ⟨⟨none, o, (), ⟨[], [], [], [], 250⟩⟩, (), (), some m, some m, m⟩

end Ex

/-- **C134** fails: without a projection layer and with an encoder of size 5, the default 128 raises where 5 would not. -/
theorem C134_false : ¬ C134_claim Unit Nat Unit := fun h => by
  have h1 := h (Ex.cfg false .fast true false 5 5) 128 (Ex.draws 0) (Ex.draws 0) 0 Ex.start rfl
  rw [C134_partial (Ex.cfg false .fast true false 5 5) (Ex.sensible _ _) (Ex.fair 0) (Ex.fair 0) (by decide) Ex.start
      (by decide) (.inr rfl),
    (C134_mismatch { Ex.cfg false .fast true false 5 5 with desired := 128 } (Ex.sensible _ _) (Ex.fair 0) (Ex.fair 0)
      Ex.start rfl (by decide)).1] at h1
  cases h1

/-- **C135** fails: the matrix of the new loss is another one. -/
theorem C135_false : ¬ C135_claim Unit Nat Nat Nat Unit := fun h => by
  have := h (fun _ _ _ _ m => m) (Ex.cb 1 5) (Ex.cb 2 6) ⟨rfl, rfl⟩ rfl rfl rfl
  have e := (C135_partial (Ex.cb 1 5) (Ex.cb 2 6) rfl rfl rfl).2.2.1
  simp only [e] at this
  norm_num [Ex.cb] at this

example : ((Ex.cb 2 6).loadStateDict (Ex.cb 1 5).stateDict ⟨true, true, true⟩).1.base.optimizer = 5 :=
  (C135_partial (Ex.cb 1 5) (Ex.cb 2 6) rfl rfl rfl).2.1

end CurlRun

end Verif
