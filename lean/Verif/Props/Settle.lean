import Verif.Proofs.Settle
import Verif.Props.Environments
import Verif.Props.Verbatim
import Verif.Model.Eq2

/-!
# Repeated tidying settles (C101)
-/

namespace LatexAst
open Spec

namespace Ast1

/-- What is printed is the source itself, or lighter than the source. -/
theorem C101 (s : Str) (d : Document) (h : fromStr s = .ok d) : displayChunks d = s ∨ weight (displayChunks d) < weight s := by
  by_cases e : displayChunks d = s
  · exact .inl e
  · exact .inr (Nat.lt_of_le_of_ne (parsed_lighter h).1 fun h' => e ((parsed_lighter h).2 h'))

/-- Hence printing and reading again, over and over, comes to an end within as many rounds as the source is heavy: either some
printed text is refused, or it is printed back as it is from then on. -/
theorem C101_settles (s : Str) :
    ∃ k, k ≤ weight s ∧ (repeated tidy (k + 1) s = none ∨ ∃ x, repeated tidy k s = some x ∧ tidy x = some x) :=
  repeated_settles (fun _ _ h => tidy_lighter h) _ s (Nat.le_refl _)

/-- The texts that are printed back as they are, are the `Verbatim` ones. -/
theorem C101_end (x : Str) : tidy x = some x ↔ Verbatim x := by
  rw [← verbatim_iff]
  unfold tidy
  constructor
  · intro h
    split at h
    · rename_i d hd; injection h with h; exact ⟨d, hd, h⟩
    · cases h
  · rintro ⟨d, h1, h2⟩
    rw [h1]; exact congrArg some h2

/-- The weight is at most twice the length. -/
theorem C101_weight (s : Str) : weight s ≤ 2 * s.length := (weight_length s).2

/-- Three rounds may be needed. -/
theorem C101_example :
    tidy chars!"\\a{(\\c)\\(\\d( : )[y].)}" = some chars!"\\a{{\\c}\\(\\d( : )[y].)}" ∧
    tidy chars!"\\a{{\\c}\\(\\d( : )[y].)}" = some chars!"\\a{\\c(\\d : {y}.)}" ∧
    tidy chars!"\\a{\\c(\\d : {y}.)}" = some chars!"\\a{\\c(\\d : y.)}" ∧
    tidy chars!"\\a{\\c(\\d : y.)}" = some chars!"\\a{\\c(\\d : y.)}" := by decide +kernel

/-- And a printed text may be refused. -/
theorem C101_refused : tidy chars!"[\\a(})]" = some chars!"{\\a(})}" ∧ repeated tidy 2 chars!"[\\a(})]" = none := by decide +kernel

end Ast1

namespace Ast2

theorem tidy_eq {s x : Str} (h : tidy s = some x) : Ast1.tidy s = some x := by
  unfold tidy at h
  split at h
  · rename_i e he
    injection h with h
    obtain ⟨d, h1, h2⟩ := C21_source s e he
    unfold Ast1.tidy
    rw [h1]; exact congrArg some (h2.symm.trans h)
  · cases h

/-- The same at stage 2. -/
theorem C101 (s : Str) (d : Document) (h : fromStr s = .ok d) : displayChunks d = s ∨ weight (displayChunks d) < weight s := by
  obtain ⟨d', h1, h2⟩ := C21_source s d h
  rw [h2]; exact Ast1.C101 s d' h1

theorem C101_settles (s : Str) :
    ∃ k, k ≤ weight s ∧ (repeated tidy (k + 1) s = none ∨ ∃ x, repeated tidy k s = some x ∧ tidy x = some x) :=
  Ast1.repeated_settles (fun _ _ h => Ast1.tidy_lighter (tidy_eq h)) _ s (Nat.le_refl _)

theorem C101_example :
    tidy chars!"\\begin{a}[{x}](y)\\end{a}" = some chars!"\\begin{a}[{x}](y)\\end{a}" ∧
    tidy chars!"\\begin{a}{[x]}(y)\\end{a}" = some chars!"\\begin{a}{{x}}(y)\\end{a}" ∧
    tidy chars!"\\begin{a}{{x}}(y)\\end{a}" = some chars!"\\begin{a}{x}(y)\\end{a}" ∧
    tidy chars!"\\begin{a}{x}(y)\\end{a}" = some chars!"\\begin{a}{x}(y)\\end{a}" := by decide +kernel

end Ast2
end LatexAst
