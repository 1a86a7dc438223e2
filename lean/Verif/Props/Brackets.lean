import Verif.Model.Basic

/-!
# C75: the bracket tables agree, for every character
-/

namespace LatexAst.ScopeVariant

/-- C75: a character is the opening bracket of a kind exactly if the kind is what it opens (otherwise asking panics, `none`). -/
theorem C75_opening (c : Char) (v : ScopeVariant) : fromOpening c = some v ↔ v.opening = c := by
  unfold fromOpening
  constructor
  · intro h
    split at h
    · injection h with h; subst h; simp_all [opening]
    · split at h
      · injection h with h; subst h; simp_all [opening]
      · split at h
        · injection h with h; subst h; simp_all [opening]
        · cases h
  · rintro rfl
    cases v <;> rfl

/-- C75: the same for closing brackets. -/
theorem C75_closing (c : Char) (v : ScopeVariant) : fromClosing c = some v ↔ v.closing = c := by
  unfold fromClosing
  constructor
  · intro h
    split at h
    · injection h with h; subst h; simp_all [closing]
    · split at h
      · injection h with h; subst h; simp_all [closing]
      · split at h
        · injection h with h; subst h; simp_all [closing]
        · cases h
  · rintro rfl
    cases v <;> rfl

/-- C75: `is_opening` and `is_closing` say whether there is such a kind; so nothing that passes the check panics. -/
theorem C75_is (c : Char) : (isOpening c = true ↔ ∃ v, fromOpening c = some v) ∧
    (isClosing c = true ↔ ∃ v, fromClosing c = some v) := by
  simp only [C75_opening, C75_closing]
  refine ⟨⟨?_, ?_⟩, ⟨?_, ?_⟩⟩
  · intro h
    simp only [isOpening, Bool.or_eq_true, beq_iff_eq] at h
    rcases h with (rfl | rfl) | rfl
    · exact ⟨.curly, rfl⟩
    · exact ⟨.square, rfl⟩
    · exact ⟨.round, rfl⟩
  · rintro ⟨v, rfl⟩; cases v <;> rfl
  · intro h
    simp only [isClosing, Bool.or_eq_true, beq_iff_eq] at h
    rcases h with (rfl | rfl) | rfl
    · exact ⟨.curly, rfl⟩
    · exact ⟨.square, rfl⟩
    · exact ⟨.round, rfl⟩
  · rintro ⟨v, rfl⟩; cases v <;> rfl

/-- C75: no character is both, and different kinds have different brackets. -/
theorem C75_distinct (c : Char) (v w : ScopeVariant) : ¬ (isOpening c = true ∧ isClosing c = true) ∧
    (v.opening = w.opening → v = w) ∧ (v.closing = w.closing → v = w) := by
  refine ⟨?_, ?_, ?_⟩
  · rintro ⟨h1, h2⟩
    obtain ⟨v, h1⟩ := (C75_is c).1.1 h1
    obtain ⟨w, h2⟩ := (C75_is c).2.1 h2
    rw [C75_opening] at h1
    rw [C75_closing] at h2
    rw [← h2] at h1
    revert h1
    cases v <;> cases w <;> decide
  · cases v <;> cases w <;> decide
  · cases v <;> cases w <;> decide

/-- The usual brackets. -/
example : fromOpening '[' = some .square ∧ fromClosing ')' = some .round ∧ fromOpening 'a' = none := by decide

end LatexAst.ScopeVariant
