namespace Verif

/-- Induction from the end of a list. -/
theorem snocInduction {α : Type u} {P : List α → Prop} (nil : P [])
    (snoc : ∀ l a, P l → P (l ++ [a])) (l : List α) : P l := by
  have : P l.reverse.reverse := by
    induction l.reverse with
    | nil => simpa using nil
    | cons a l ih => simpa using snoc _ a ih
  simpa using this

end Verif
