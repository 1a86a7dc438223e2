import Verif.Spec.Load3
import Verif.Spec.Paste

/-!
# Specification: joining sequences of stage-3 chunks
-/

namespace LatexAst.Ast2
open Spec

/-- The chunks `b` may be put right after the chunks `a`, where a text at the end of `a` and one at the beginning of `b` become one text:

* a text right after a letter command begins with a blank if the command has no arguments, and does not begin with a closing bracket if it
  has, nor if it comes after an environment;
* right after a letter command or an environment, with only blank texts between them, there is no scope and no command `\` + blank or opening
  bracket. -/
def Touches (a b : List Chunk) : Prop :=
  (∀ i l x name args l' t r, a = i ++ [.mk l (.command (.mk (x :: name) args))] → isAsciiAlphabetic x = true → b = .mk l' (.text t) :: r →
    (args = [] → ∃ y z, t = y :: z ∧ isWhitespace y = true) ∧ (args ≠ [] → ∀ y z, t = y :: z → y ∉ ['}', ']', ')'])) ∧
  (∀ i l env l' t r, a = i ++ [.mk l (.environment env)] → b = .mk l' (.text t) :: r → ∀ y z, t = y :: z → y ∉ ['}', ']', ')']) ∧
  (∀ i w w' l v r, a = i ++ w → b = w' ++ .mk l v :: r → EndsLikeCommand i → (∀ c ∈ w ++ w', ∃ t, c.variant = .text t ∧ Blank t) →
    (∀ sc, v ≠ .scope sc) ∧ ∀ y args, v = .command (.mk [y] args) → isWhitespace y = false ∧ y ∉ ['{', '[', '('])

end LatexAst.Ast2

namespace LatexAst.Ast3
open Spec

/-- Where texts and breaks come together they are as one text is cut: text and break take turns, the text before a break does not end in a newline
and blanks, and the text after a break begins with a character that is not blank. -/
def Seam (a b : List Chunk) : Prop :=
  ∀ i l v l' v' r, a = i ++ [.mk l v] → b = .mk l' v' :: r →
    (∀ t t', v = .text t → v' ≠ .text t') ∧ (∀ s s', v = .paragraphBreak s → v' ≠ .paragraphBreak s') ∧
    (∀ t s, v = .text t → v' = .paragraphBreak s → ¬ EndsInNewline t) ∧ (∀ s t, v = .paragraphBreak s → v' = .text t → StartsDark t)

/-- A document that consists only of these chunks (in front of an empty `document` environment). -/
def fragment (cs : List Chunk) : Document :=
  { documentclass := none, documentoptions := [], preamable := cs, bodyArgs := [], body := [], bodyBeginPrec := [], bodyEndPrec := [], trailing := [] }

/-- A letter command with an argument: what `\begin{..}` is to what comes after it. -/
def afterBegin : List Ast2.Chunk := [.mk 1 (.command (.mk ['x'] [([], .mk [] .curly)]))]

end LatexAst.Ast3
