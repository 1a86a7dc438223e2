import Verif.Proofs.Verbatim
import Verif.Props.Parsing
import Verif.Props.RoundTrip1

/-!
# C01, C03, C14, C19, exactly: what is printed back, or read back, as it is

`Spec/Verbatim.lean` defines `Verbatim`, by the constructs of the source alone.
-/

namespace LatexAst.Ast1
open Spec

/-- C01, exactly: with comments free of backslashes, a source is accepted and printed back as itself without its
comments if and only if what is left without the comments is `Verbatim`. (For other sources C01 is false.) -/
theorem C01_exact_partial (s : Str) (hs : NoBackslashInComments s) :
    (∃ d, fromStr s = .ok d ∧ displayChunks d = stripComments s) ↔ Verbatim (stripComments s) := by
  rw [C02_partial s hs]; exact verbatim_iff _

/-- C01, exactly, for an accepted source, whatever its comments are: it is printed back with nothing removed at all if and
only if it is `Verbatim`. -/
theorem C01_same_partial (s : Str) (d : Document) (h : fromStr s = .ok d) : displayChunks d = s ↔ Verbatim s := by
  rw [← verbatim_iff]
  constructor
  · exact fun he => ⟨d, h, he⟩
  · rintro ⟨d', h', he⟩
    rw [h] at h'
    cases h'
    exact he

/-- C01: `Verbatim` is met by a source with a nested scope, an escape, and a command with two arguments, one of which
contains a command with an argument of another kind. -/
theorem C01_verbatim_example : Verbatim chars!"a{b\\$}\\foo{x\\bar[1]} [y] c" := by
  have hx : Verbatim chars!"x\\bar[1]" := by
    refine .text (t := chars!"x") (r := chars!"\\bar[1]") (by simp) (by simp) (by simp [TextEnds]) ?_
    refine .lastCommand (name := chars!"bar") (w := chars!"[1]") (g := []) (contents := [chars!"1"]) ?_ ?_ ?_ (by simp [Blank])
    · exact ⟨'b', chars!"ar", rfl, by decide, by simp [Special, isWhitespace]⟩
    · exact .arg (g := []) (v := .square) (a := chars!"1") (w := []) (by simp [Blank]) (by simp [NoDangling])
        (by simp [Balanced, ScopeVariant.opening, ScopeVariant.closing]) (by decide) .none
    · intro a ha
      obtain rfl : a = chars!"1" := by simpa using ha
      exact .text (t := chars!"1") (r := []) (by simp) (by simp) (by simp [TextEnds]) .nil
  refine .text (t := chars!"a") (r := chars!"{b\\$}\\foo{x\\bar[1]} [y] c") (by simp) (by simp) (by simp [TextEnds]) ?_
  refine .scope (a := chars!"b\\$") (r := chars!"\\foo{x\\bar[1]} [y] c") (by simp [NoDangling])
    (by simp [Balanced, ScopeVariant.opening, ScopeVariant.closing]) ?_ ?_
  · exact .text (t := chars!"b") (r := chars!"\\$") (by simp) (by simp) (by simp [TextEnds]) (.symbol (by decide) .nil)
  · refine .command (name := chars!"foo") (w := chars!"{x\\bar[1]} [y]") (g := chars!" ") (t := chars!"c")
      (contents := [chars!"x\\bar[1]", chars!"y"]) ?_ ?_ ?_ (by simp [Blank, isWhitespace]) ?_ ?_
    · exact ⟨'f', chars!"oo", rfl, by decide, by simp [Special, isWhitespace]⟩
    · refine .arg (g := []) (v := .curly) (a := chars!"x\\bar[1]") (w := chars!" [y]") (by simp [Blank]) (by simp [NoDangling])
        (by simp [Balanced, ScopeVariant.opening, ScopeVariant.closing]) (by decide) ?_
      exact .arg (g := chars!" ") (v := .square) (a := chars!"y") (w := []) (by simp [Blank, isWhitespace]) (by simp [NoDangling])
        (by simp [Balanced, ScopeVariant.opening, ScopeVariant.closing]) (by decide) .none
    · intro a ha
      rcases (by simpa using ha : a = chars!"x\\bar[1]" ∨ a = chars!"y") with rfl | rfl
      · exact hx
      · exact .text (t := chars!"y") (r := []) (by simp) (by simp) (by simp [TextEnds]) .nil
    · exact .inr ⟨'c', [], rfl, by decide, by decide, by decide, by simp⟩
    · exact .text (t := chars!" c") (r := []) (by simp) (by simp) (by simp [TextEnds]) .nil

/-- So it is parsed and printed back. -/
example : ∃ d, fromStr chars!"a{b\\$}\\foo{x\\bar[1]} [y] c" = .ok d ∧ displayChunks d = chars!"a{b\\$}\\foo{x\\bar[1]} [y] c" :=
  (verbatim_iff _).2 C01_verbatim_example

/-- And `Verbatim` does not hold of the sources of `C01_false`. -/
example : ¬ Verbatim chars!"(a)" := fun h => by
  obtain ⟨d, h1, h2⟩ := (verbatim_iff _).2 h
  have : fromStr chars!"(a)" = .ok [.mk 1 (.scope (.mk [.mk 1 (.text chars!"a")] .curly))] := by decide +kernel
  rw [this] at h1
  cases h1
  exact absurd h2 (by decide)

/-! ### C03, C14, C19 -/

/-- C03, exactly: the canonical documents are all the documents that are read back from their printed form. -/
theorem C03_exact (d : Document) : fromStr (displayChunks d) = .ok d ↔ Canonical d := by
  refine ⟨fun h => ?_, C03 d⟩
  have := (hypotheses_iff d).2 (by
    refine (allChunks_iff _).2 fun v hv => ?_
    have := (allChunks_iff _).1 (printed_hyp h) v hv
    cases v with
    | text => trivial
    | scope s => cases s; exact this
    | command c =>
      obtain ⟨l, a⟩ := c
      rintro ⟨p, ⟨i, sv⟩⟩ hm rfl
      refine (allChunks_iff _).2 fun w hw => ?_
      have := (allChunks_iff _).1 (this _ hm rfl) w hw
      cases w <;> first | trivial | exact this)
  exact canonical_of_parsed h this.1 this.2

/-- C14, exactly, with equality of the documents: the printed form of a parsed document is read back as that document
if and only if no free scope lies inside a curly argument and no text of a free scope contains `}`. -/
theorem C14_exact_partial (s : Str) (d : Document) (h : fromStr s = .ok d) :
    fromStr (displayChunks d) = .ok d ↔ NoScopeInCurlyArgument d ∧ NoCloserInScope d := by
  refine ⟨fun hd => ?_, fun hh => C14_partial s d h hh.1 hh.2⟩
  have hc := (C03_exact d).1 hd
  constructor
  · intro label args p inner hw hm sc hsc
    obtain ⟨lv, l, hl, hm'⟩ := within_level hw
    have := (hc lv hl).1.2 _ _ hm'
    rcases this with ⟨_, hb⟩ | ⟨c, _, _, rfl⟩
    · obtain ⟨_, ⟨hns, _⟩, _⟩ := hb p inner .curly hm
      obtain ⟨i, sv⟩ := sc
      have hcur : sv = .curly := by
        obtain ⟨lv', l', hl', hm''⟩ := within_level hsc
        exact ((hc lv' ((Level.arg hl hm' hm).trans hl')).1.2 _ _ hm'').1
      exact hns i sv hsc hcur
    · cases hm
  · intro inner sv hw
    obtain ⟨lv, l, hl, hm'⟩ := within_level hw
    exact ((hc lv hl).1.2 _ _ hm').2

/-- C14 as stated (same text after another pass), exactly: it holds of a parsed document if and only if its printed form is
`Verbatim`. -/
theorem C14_text_partial (s : Str) (d : Document) (_ : fromStr s = .ok d) :
    (∃ d', fromStr (displayChunks d) = .ok d' ∧ displayChunks d' = displayChunks d) ↔ Verbatim (displayChunks d) :=
  verbatim_iff _

/-- C19, exactly: a document (valid or not) survives printing and parsing if and only if its printed form is `Verbatim`. -/
theorem C19_exact_partial (d : Document) :
    (∃ d', fromStr (displayChunks d) = .ok d' ∧ displayChunks d' = displayChunks d) ↔ Verbatim (displayChunks d) :=
  verbatim_iff _

/-- The text may be stable although the document is not: `(})` is read as a scope with the text `}`, and printed as `{}}`. -/
theorem C14_text_only : ∃ d d', fromStr chars!"(})" = .ok d ∧ fromStr (displayChunks d) = .ok d' ∧
    displayChunks d' = displayChunks d ∧ d' ≠ d :=
  ⟨[.mk 1 (.scope (.mk [.mk 1 (.text chars!"}")] .curly))], [.mk 1 (.scope (.mk [] .curly)), .mk 1 (.text chars!"}")],
    by decide +kernel, by decide +kernel, by decide +kernel, by decide +kernel⟩

end LatexAst.Ast1
