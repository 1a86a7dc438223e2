import Verif.Proofs.Crlf4
import Verif.Model.Eq3

/-!
# Windows line ends (C98)
-/

namespace LatexAst
open Spec

/-- Stage 1 reads a source with Windows line ends as the original one, with Windows line ends: the same chunks at the same
lines, or the same error at the same line. -/
theorem Ast1.C98 (s : Str) (h : SelfContained s) (hn : NoEscapedNewline s) :
    fromStr (toCrlf s) = crlfRes crlfChunks (fromStr s) :=
  fromStr_crlf s h hn

/-- So does stage 2. -/
theorem Ast2.C98 (s : Str) (h : SelfContained s) (hn : NoEscapedNewline s) :
    fromStr (toCrlf s) = crlfRes crlfChunks (fromStr s) :=
  fromStr_crlf s h hn

/-- Conversion to stage 2 of every stage-1 document, whether parsed or not. -/
theorem Ast2.C98_convert (d : Ast1.Document) : tryFrom (Ast1.crlfChunks d) = crlfRes crlfChunks (tryFrom d) :=
  tryFrom_crlf d

/-- Stage 3 gives the same paragraphs, maths and options at the same lines, up to carriage returns. -/
theorem Ast3.C98 (s : Str) (h : SelfContained s) (hn : NoEscapedNewline s) :
    eraseCrRes Document.eraseCr (fromStr (toCrlf s)) = eraseCrRes Document.eraseCr (fromStr s) :=
  fromStr_crlf s h hn

/-- Conversion to stage 3 of every stage-2 document, whether parsed or not. -/
theorem Ast3.C98_convert (d : Ast2.Document) :
    eraseCrRes Document.eraseCr (tryFrom (Ast2.crlfChunks d)) = eraseCrRes Document.eraseCr (tryFrom d) :=
  tryFrom_crlf d

/-- In particular, whether a source is accepted does not depend on its line ends. -/
theorem Ast3.C98_accepted (s : Str) (h : SelfContained s) (hn : NoEscapedNewline s) :
    (∃ d, fromStr (toCrlf s) = .ok d) ↔ ∃ d, fromStr s = .ok d := by
  have := C98 s h hn
  revert this
  rcases fromStr (toCrlf s) with e | a <;> rcases fromStr s with e' | a' <;> simp [eraseCrRes]

theorem C98_example :
    SelfContained chars!"a\n\n$x\\alpha$\n\\b\n{c\n}" ∧ NoEscapedNewline chars!"a\n\n$x\\alpha$\n\\b\n{c\n}" ∧
    toCrlf chars!"a\n\n$x\\alpha$\n\\b\n{c\n}" = chars!"a\r\n\r\n$x\\alpha$\r\n\\b\r\n{c\r\n}" ∧
    Ast1.fromStr chars!"\n\\b\n{c\n}" =
      .ok [.mk 1 (.text chars!"\n"), .mk 2 (.command (.mk chars!"b" [(chars!"\n", .mk [.mk 1 (.text chars!"c\n")] .curly)]))] ∧
    Ast1.fromStr chars!"\r\n\\b\r\n{c\r\n}" =
      .ok [.mk 1 (.text chars!"\r\n"),
        .mk 2 (.command (.mk chars!"b" [(chars!"\r\n", .mk [.mk 1 (.text chars!"c\r\n")] .curly)]))] ∧
    (Ast3.fromStr chars!"a\r\n\r\nb").map (·.preamable) =
      .ok [.mk 1 (.text chars!"a\r"), .mk 1 (.paragraphBreak chars!"\n\r\n"), .mk 3 (.text chars!"b")] := by
  refine ⟨?_, ?_, ?_, ?_, ?_, ?_⟩
  · exact ⟨by decide +kernel, by simp [NoDangling]⟩
  · simp [NoEscapedNewline]
  all_goals decide +kernel

/-- The conditions are needed: of an escaped `\r\n` only the `\r` is escaped, and a comment swallows the `\r` (but not
the `\n`) that ends it. -/
theorem C98_needed :
    Ast1.fromStr (toCrlf chars!"\\\nb") ≠ crlfRes Ast1.crlfChunks (Ast1.fromStr chars!"\\\nb") ∧
    eraseCrRes Ast3.Document.eraseCr (Ast3.fromStr (toCrlf chars!"\\\nb")) ≠
      eraseCrRes Ast3.Document.eraseCr (Ast3.fromStr chars!"\\\nb") ∧
    Ast1.fromStr (toCrlf chars!"a%b\nc") ≠ crlfRes Ast1.crlfChunks (Ast1.fromStr chars!"a%b\nc") := by
  refine ⟨?_, ?_, ?_⟩ <;> decide +kernel

end LatexAst
