import Verif.Props.Dynamics

/-!
# C168: what the normaliser makes of data that has changed
-/

namespace Verif

namespace Dyn

theorem move {x m y r δ D q : ℝ} (hr : 1 / 100 ≤ r) (hr' : r ≤ 1) (hx : |x - m| ≤ δ + q * D) (hy : |y - m| ≤ δ) (hD : 0 ≤ q * D) :
    |x + r * (y - x) - m| ≤ δ + q * (99 / 100) * D := by
  have h1 : x + r * (y - x) - m = (1 - r) * (x - m) + r * (y - m) := by ring
  rw [h1]
  refine (abs_add_le _ _).trans ?_
  rw [abs_mul, abs_mul, abs_of_nonneg (by linarith : 0 ≤ 1 - r), abs_of_nonneg (by linarith : 0 ≤ r)]
  have h2 := mul_le_mul_of_nonneg_left hx (by linarith : 0 ≤ 1 - r)
  have h3 := mul_le_mul_of_nonneg_left hy (by linarith : 0 ≤ r)
  nlinarith

/-- **C168**: if from some batch on the columns of the batches have means and standard deviations near `m` and `s`, then the difference of what
is tracked from them shrinks by at least a hundredth with every batch, whatever came before. -/
theorem C168 (before later : List (List (Row ι ℝ))) (h : ∀ b ∈ before ++ later, 2 ≤ b.length) (hne : before ≠ []) (i : ι)
    {m s δ : ℝ} (hδ : 0 ≤ δ) (hs : 1 / 10 ^ 5 ≤ s)
    (hl : ∀ b ∈ later, ∀ m' s', IsMeanStd (b.map fun row => row i) m' s' → |m' - m| ≤ δ ∧ |s' - s| ≤ δ) :
    ∃ M₀ S₀ m₀ s₀ M S m₁ s₁, (after before).stats = some (M₀, S₀) ∧ M₀ i = some m₀ ∧ S₀ i = some s₀ ∧
      (after (before ++ later)).stats = some (M, S) ∧ M i = some m₁ ∧ S i = some s₁ ∧
      |m₁ - m| ≤ δ + (99 / 100) ^ later.length * |m₀ - m| ∧ |s₁ - s| ≤ δ + (99 / 100) ^ later.length * |s₀ - s| := by
  induction later using List.reverseRecOn with
  | nil =>
    rw [List.append_nil] at h ⊢
    have hst : ∃ M S, (after before).stats = some (M, S) := by
      obtain ⟨init, b, rfl⟩ := List.eq_nil_or_concat before |>.resolve_left hne
      rw [List.concat_eq_append, after_snoc]
      exact ⟨_, _, by simp only [Normalizer.update]; rfl⟩
    obtain ⟨M, S, hMS⟩ := hst
    obtain ⟨⟨x, hx⟩, y, hy, -⟩ := healthy_after before h M S hMS i
    exact ⟨M, S, x, y, M, S, x, y, hMS, hx, hy, hMS, hx, hy, by simp [hδ], by simp [hδ]⟩
  | append_singleton later b ih =>
    obtain ⟨M₀, S₀, m₀, s₀, M, S, m₁, s₁, h1, h2, h3, h4, h5, h6, h7, h8⟩ :=
      ih (fun b hb => h b (by simp only [List.mem_append] at hb ⊢; tauto)) fun b hb => hl b (by simp [hb])
    obtain ⟨m', s', hms, M', S', h9, -, h10⟩ := C65_tracks (before ++ later) b (h b (by simp)) i
    obtain ⟨h11, h12⟩ := h10 M S m₁ s₁ h4 h5 h6
    obtain ⟨hm', hs'⟩ := hl b (by simp) m' s' hms
    obtain ⟨r1, r2, -⟩ := C65_rate_bounds (before ++ later) b
    rw [← List.append_assoc, List.length_append, List.length_singleton, pow_succ]
    refine ⟨M₀, S₀, m₀, s₀, M', S', _, _, h1, h2, h3, h9, h11, h12, ?_, ?_⟩
    · exact move r1 (by linarith) h7 hm' (by positivity)
    · refine le_trans ?_ (move r1 (by linarith) h8 hs' (by positivity))
      have := abs_max_sub_max_le_abs (s₁ + (after (before ++ later)).rate * (s' - s₁)) s (1 / 10 ^ 5)
      rwa [max_eq_left hs] at this

namespace Ex

/-- Data around 10 with standard deviation 3 after data around 0. -/
example (later : List (List (Row Unit ℝ))) (h : ∀ b ∈ later, b = [fun _ => 7, fun _ => 13, fun _ => 10]) :
    ∃ M S m₁ s₁, (after ([[fun _ => 0, fun _ => 0]] ++ later)).stats = some (M, S) ∧ M () = some m₁ ∧ S () = some s₁ ∧
      |m₁ - 10| ≤ (99 / 100) ^ later.length * 10 := by
  obtain ⟨M₀, S₀, m₀, s₀, M, S, m₁, s₁, h1, h2, h3, h4, h5, h6, h7, h8⟩ := C168 [[fun _ => 0, fun _ => 0]] later
    (by
      intro b hb
      rcases List.mem_append.1 hb with hb | hb
      · rw [List.mem_singleton.1 hb]; simp
      · rw [h b hb]; simp) (by simp) () (m := 10) (s := 3) (δ := 0) le_rfl (by norm_num)
    (by
      intro b hb m' s' hms
      rw [h b hb] at hms
      obtain ⟨e1, e2, e3⟩ := hms
      norm_num at e1 e3
      have e4 : m' = 10 := by linarith
      subst e4
      have e5 : s' = 3 := by nlinarith
      subst e5
      simp)
  refine ⟨M, S, m₁, s₁, h4, h5, h6, ?_⟩
  have h0 : m₀ = 0 := by
    obtain ⟨x, hx, h9, h10⟩ := C65_mean [[fun _ : Unit => (0 : ℝ), fun _ => 0]] (by simp) () 0 0 (by simp) M₀ S₀ h1
    rw [h2] at hx
    cases hx
    linarith
  rw [h0] at h7
  norm_num at h7 ⊢
  linarith

end Ex

end Dyn

end Verif
