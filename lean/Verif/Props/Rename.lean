import Verif.Proofs.Rename4
import Verif.Model.Eq3

/-!
# Characters of the same kind are treated alike (C97)
-/

namespace LatexAst
open Spec

/-- Stage 1 reads, prints, counts and validates a document with renamed characters as the original one, renamed. -/
theorem Ast1.C97 (f : Char → Char) (R : Renaming1 f) :
    (∀ s, fromStr (s.map f) = renameRes f (renameChunks f) (fromStr s)) ∧
    (∀ d, displayChunks (renameChunks f d) = (displayChunks d).map f) ∧
    (∀ d, Document.lines (renameChunks f d) = Document.lines d) ∧
    (∀ d, Document.validate (renameChunks f d) = Document.validate d) :=
  ⟨fromStr_rename R, displayChunks_rename R, fun d => congrArg (· + 1) (linesSum_rename R d), validateFrom_rename R 1⟩

/-- Stage 2, and the conversions between stages 1 and 2. -/
theorem Ast2.C97 (f : Char → Char) (R : Renaming2 f) :
    (∀ s, fromStr (s.map f) = renameRes f (renameChunks f) (fromStr s)) ∧
    (∀ d, tryFrom (Ast1.renameChunks f d) = renameRes f (renameChunks f) (tryFrom d)) ∧
    (∀ d, toAst1 (renameChunks f d) = renameRes f (Ast1.renameChunks f) (toAst1 d)) ∧
    (∀ d, displayChunks (renameChunks f d) = (displayChunks d).map f) ∧
    (∀ d, Document.lines (renameChunks f d) = Document.lines d) ∧
    (∀ d, Document.validate (renameChunks f d) = Document.validate d) :=
  ⟨fromStr_rename R, tryFrom_rename R, toAst1_rename R, displayChunks_rename R,
    fun d => congrArg (· + 1) (linesSum_rename R d), validateFrom_rename R 1⟩

/-- Stage 3, and the conversions between stages 2 and 3. -/
theorem Ast3.C97 (f : Char → Char) (R : Renaming3 f) :
    (∀ s, fromStr (s.map f) = renameRes f (Document.rename f) (fromStr s)) ∧
    (∀ d, tryFrom (Ast2.renameChunks f d) = renameRes f (Document.rename f) (tryFrom d)) ∧
    (∀ d, toAst2 (d.rename f) = renameRes f (Ast2.renameChunks f) (toAst2 d)) ∧
    (∀ d : Document, (d.rename f).display = d.display.map f) ∧
    (∀ d : Document, (d.rename f).lines = d.lines) ∧
    (∀ d : Document, (d.rename f).validate = d.validate) :=
  ⟨fromStr_rename R, tryFrom_rename R, toAst2_rename R, Document.display_rename R, Document.lines_rename R,
    Document.validate_rename R⟩

/-- Exchanges two characters. -/
def exchange (x y c : Char) : Char := if c = x then y else if c = y then x else c

theorem exchange_fix {x y c : Char} (h1 : c ≠ x) (h2 : c ≠ y) : exchange x y c = c := by simp [exchange, h1, h2]
theorem exchange_inj {x y a b : Char} (h : exchange x y a = exchange x y b) : a = b := by
  simp only [exchange] at h; grind

/-- Any two characters that are both whitespace or neither, both letters or neither, and none of those that a stage
distinguishes, may be exchanged in the source of a stage-3 document (and of the other stages). -/
theorem C97_exchange (x y : Char) (hw : isWhitespace x = isWhitespace y) (hl : isAsciiAlphabetic x = isAsciiAlphabetic y)
    (hx : x ∉ chars!"\n%\\{}[]()begindocumtlas$,=") (hy : y ∉ chars!"\n%\\{}[]()begindocumtlas$,=") :
    Renaming3 (exchange x y) := by
  have fix : ∀ c ∈ chars!"\n%\\{}[]()begindocumtlas$,=", exchange x y c = c := fun c hc =>
    exchange_fix (fun h => hx (h ▸ hc)) (fun h => hy (h ▸ hc))
  refine ⟨⟨⟨fun z hz c => ⟨fun h => ?_, fun h => ?_⟩, fun c => ?_, fun c => ?_⟩, fun a b => exchange_inj, fun c hc => ?_⟩,
    fun c hc => ?_⟩
  · have := fix z (by simp at hz ⊢; grind)
    exact exchange_inj (this ▸ h)
  · subst h; exact fix c (by simp at hz ⊢; grind)
  · simp only [exchange]; split
    · simp_all
    · split <;> simp_all
  · simp only [exchange]; split
    · simp_all
    · split <;> simp_all
  · exact fix c (by simp at hc ⊢; grind)
  · exact fix c (by simp at hc ⊢; grind)

/-- Stage 1 does not tell apart characters at all that are neither whitespace, nor letters, nor special: this renaming
leaves only one of each kind. -/
def collapse (c : Char) : Char :=
  if c ∈ chars!"\n%\\{}[]()" then c else if isWhitespace c then ' ' else if isAsciiAlphabetic c then 'a' else '.'

theorem collapse_renaming : Renaming1 collapse := by
  refine ⟨fun x hx c => ?_, fun c => ?_, fun c => ?_⟩
  · by_cases h : c ∈ chars!"\n%\\{}[]()"
    · simp only [collapse, h, if_true]
    · simp only [collapse, h, if_false]
      have h1 : c ≠ x := fun e => h (e ▸ (by simpa using hx))
      simp only [h1, iff_false]
      intro e
      have : x ∈ [' ', 'a', '.'] := by
        rw [← e]; split
        · simp
        · split <;> simp
      simp at hx this
      rcases this with rfl | rfl | rfl <;> simp at hx
  · by_cases h : c ∈ chars!"\n%\\{}[]()"
    · simp only [collapse, h, if_true]
    · simp only [collapse, h, if_false]
      by_cases h1 : isWhitespace c = true
      · simp only [h1, if_true]; decide
      · by_cases h2 : isAsciiAlphabetic c = true
        · simp only [h1, h2, if_true]; decide
        · simp only [h1, h2]; decide
  · by_cases h : c ∈ chars!"\n%\\{}[]()"
    · simp only [collapse, h, if_true]
    · simp only [collapse, h, if_false]
      by_cases h1 : isWhitespace c = true
      · have : isAsciiAlphabetic c = false := by
          simp only [isWhitespace, isAsciiAlphabetic] at h1 ⊢
          simp at h1 ⊢; omega
        simp only [h1, if_true, this]; decide
      · by_cases h2 : isAsciiAlphabetic c = true
        · simp only [h1, h2, if_true]; decide
        · simp only [h1, h2]; decide

theorem C97_example : Renaming3 (exchange 'x' 'y') ∧ Renaming3 (exchange 'é' '1') ∧
    (fun s : Str => s.map (exchange 'x' 'y')) chars!"\\begin{x}$y$\\end{x}" = chars!"\\begin{y}$x$\\end{y}" ∧
    Renaming1 collapse ∧ chars!"\\foo{é,b}\tc".map collapse = chars!"\\aaa{..a} a" :=
  ⟨C97_exchange 'x' 'y' (by decide) (by decide) (by decide) (by decide),
    C97_exchange 'é' '1' (by decide) (by decide) (by decide) (by decide), by decide, collapse_renaming, by decide⟩

/-- The conditions are needed: `collapse` is not a renaming of stage 2, where different labels matter, and the dollar
cannot be exchanged with another character in stage 3. -/
theorem C97_needed :
    Ast2.fromStr (chars!"\\begin{x}\\end{y}".map fun c => if c = 'y' then 'x' else c) ≠
      renameRes (fun c => if c = 'y' then 'x' else c) (Ast2.renameChunks fun c => if c = 'y' then 'x' else c)
        (Ast2.fromStr chars!"\\begin{x}\\end{y}") ∧
    Ast3.fromStr (chars!"$".map (exchange '$' '!')) ≠
      renameRes (exchange '$' '!') (Ast3.Document.rename (exchange '$' '!')) (Ast3.fromStr chars!"$") := by
  refine ⟨fun h => ?_, fun h => ?_⟩
  · have h1 : (Ast2.fromStr (chars!"\\begin{x}\\end{y}".map fun c => if c = 'y' then 'x' else c)).isOk = true := by decide +kernel
    have h2 : (Ast2.fromStr chars!"\\begin{x}\\end{y}").isOk = false := by decide +kernel
    rw [h] at h1
    clear h
    generalize Ast2.fromStr chars!"\\begin{x}\\end{y}" = r at h1 h2
    cases r <;> simp [renameRes, Except.isOk, Except.toBool] at h1 h2
  · have h1 : (Ast3.fromStr (chars!"$".map (exchange '$' '!'))).isOk = true := by decide +kernel
    have h2 : (Ast3.fromStr chars!"$").isOk = false := by decide +kernel
    rw [h] at h1
    clear h
    generalize Ast3.fromStr chars!"$" = r at h1 h2
    cases r <;> simp [renameRes, Except.isOk, Except.toBool] at h1 h2

end LatexAst
