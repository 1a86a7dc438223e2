import Verif.Spec.MathsRule
import Verif.Spec.Document
import Verif.Spec.Grammar
import Verif.Spec.Conversion

/-!
# Specification: what the stage-3 document conversion does, on every input

`Reads e r`: converting the stage-2 document `e` gives `r`. There may be any number of `document`
environments. It has no cursor and no half-built document.
-/

namespace LatexAst.Ast3
open Spec

/-- The string does not end in whitespace. -/
def DarkEnd (s : Str) : Prop := ∀ a c, s = a ++ [c] → isWhitespace c = false

/-- How one document option is read: blanks, a character that gets lost, a key, blanks. With an equality sign, the
value that is recorded is the key once more, without its blanks, which are recorded as what follows the sign. -/
inductive ReadsOption : Str → DocOption → Prop
  | blank {w} : Blank w → ReadsOption w ([], [], none, w)
  | key {w c a b} : Blank w → isWhitespace c = false → Blank b → DarkEnd a → '=' ∉ a →
      ReadsOption (w ++ c :: (a ++ b)) (w, a, none, b)
  | value {w c k e v b} : Blank w → isWhitespace c = false → Blank b → DarkEnd ('=' :: v) → '=' ∉ k ++ e →
      Blank e → DarkEnd k →
      ReadsOption (w ++ c :: (k ++ e ++ '=' :: v ++ b))
        (w, k, some (e, (k ++ e).filter isWhitespace, (k ++ e).filter fun c => !isWhitespace c), b)

/-- How a list of options is read: split at commas, each piece on its own. -/
inductive ReadsOptions : Str → List DocOption → Prop
  | last {p o} : ',' ∉ p → ReadsOption p o → ReadsOptions p [o]
  | more {p o r os} : ',' ∉ p → ReadsOption p o → ReadsOptions r os → ReadsOptions (p ++ ',' :: r) (o :: os)

/-- How the option arguments of `\documentclass` are read, one after the other. -/
inductive ReadsLists : List Str → List DocOption → Prop
  | nil : ReadsLists [] []
  | cons {s os r os'} : ReadsOptions s os → ReadsLists r os' → ReadsLists (s :: r) (os ++ os')

/-- The chunks become `r`: maths (`Yields`) and paragraphs. -/
def Becomes (cs : List Ast2.Chunk) (r : Outcome) : Prop := ∃ o, Yields 0 cs o ∧ r = inParagraphs o

/-- The `document` environments, in order. -/
def bodiesOf (e : List Ast2.Chunk) : List Ast2.Chunk := e.filter isBody

/-- What follows the first `document` environment, without the others. -/
def trailingOf (e : List Ast2.Chunk) : List Ast2.Chunk := (e.dropWhile fun c => !isBody c).filter fun c => !isBody c

/-- The document environment that counts: the last one, or an empty one if there is none. -/
inductive Body (e : List Ast2.Chunk) : Environment → Prop
  | none : bodiesOf e = [] → Body e (.mk chars!"document" [] [] [] [])
  | last {a c l env} : bodiesOf e = a ++ [c] → Becomes [c] (.ok [.mk l (.environment env)]) → Body e env

/-- The conversion of a document. -/
inductive Reads (e : List Ast2.Chunk) : Res Document → Prop
  /-- a `\documentclass` after one that names a class -/
  | double {a l args b} : preambleOf e = a ++ .mk l (.command (.mk chars!"documentclass" args)) :: b → ClassesOk a →
      classNames (classArgs a) ≠ [] → Reads e (.error (.err ⟨l, .doubleDocumentClass⟩))
  /-- a `\documentclass` that names several classes -/
  | tooMany {a l args b} : preambleOf e = a ++ .mk l (.command (.mk chars!"documentclass" args)) :: b → ClassesOk a →
      classNames (classArgs a) = [] → 2 ≤ (classNames args).length →
      Reads e (.error (.err ⟨l, .tooManyArgsDocumentClass⟩))
  /-- otherwise the first problem in a `document` environment -/
  | body {a c b f} : ClassesOk (preambleOf e) → bodiesOf e = a ++ c :: b → (∀ x ∈ a, ∃ out, Becomes [x] (.ok out)) →
      Becomes [c] (.error f) → Reads e (.error f)
  /-- otherwise one in the preamble -/
  | preamble {f} : ClassesOk (preambleOf e) → (∀ x ∈ bodiesOf e, ∃ out, Becomes [x] (.ok out)) →
      Becomes (preambleOf e) (.error f) → Reads e (.error f)
  /-- otherwise one after the first `document` environment -/
  | trailing {pre f} : ClassesOk (preambleOf e) → (∀ x ∈ bodiesOf e, ∃ out, Becomes [x] (.ok out)) →
      Becomes (preambleOf e) (.ok pre) → Becomes (trailingOf e) (.error f) → Reads e (.error f)
  /-- no problem -/
  | document {pre post args content pb pe options} : ClassesOk (preambleOf e) →
      (∀ x ∈ bodiesOf e, ∃ out, Becomes [x] (.ok out)) → Becomes (preambleOf e) (.ok pre) →
      Becomes (trailingOf e) (.ok post) → Body e (.mk chars!"document" args content pb pe) →
      ReadsLists (optionLists (classArgs (preambleOf e))) options →
      Reads e (.ok { documentclass := (classNames (classArgs (preambleOf e))).head?, documentoptions := options,
                     preamable := pre, bodyArgs := args, body := content, bodyBeginPrec := pb, bodyEndPrec := pe,
                     trailing := post })

/-- What a source means as a LaTeX document: it is read by the grammar (comments and a backslash at the very end
apart), its environments are formed, and the result is read as a document. -/
inductive Means (s : Str) : Res Document → Prop
  | syntax {e} : Ast1.Reads 1 (Ast1.dropDangling (keepBackslashes s)) (.error e) → Means s (.error (.err e))
  | environments {d e} : Ast1.Reads 1 (Ast1.dropDangling (keepBackslashes s)) (.ok d) → Ast2.Converts d (.error e) →
      Means s (.error (.err e))
  | document {d e r} : Ast1.Reads 1 (Ast1.dropDangling (keepBackslashes s)) (.ok d) → Ast2.Converts d (.ok e) → Reads e r →
      Means s r

end LatexAst.Ast3
