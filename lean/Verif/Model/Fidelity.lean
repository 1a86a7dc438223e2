import Verif.Model.Eq1
import Verif.Model.Eq2
import Verif.Model.Eq3
import Verif.Model.Back

/-!
# The repository's own unit tests, evaluated on the model

These are TESTS of the model's fidelity (src/tests/ast1.rs, ast2.rs, ast3.rs replayed by kernel
evaluation), not proofs of properties.
-/

namespace LatexAst.Fidelity

/-! ## src/tests/ast1.rs -/
section
open Ast1

/-- src/tests/ast1.rs:10-34 `unexpected_closing`. -/
example : fromStr chars!"Test\n\n(\n    (\n        Hello\n        (\n            \\badargs]\n        )\n    )\n)" = fail 7 (.unexpectedClosing .square) := by decide +kernel

/-- src/tests/ast1.rs:36-62 `unclosed_argument`. -/
example : fromStr chars!"test\n(\n    \\hello\n    test\n    (\n        test\n        \\hello[]\n        \\badargs[[[arg arg arg]]\n    )\n)" = fail 8 (.unclosedArgument .square) := by decide +kernel

/-- src/tests/ast1.rs:64-88 `unclosed_scope`. -/
example : fromStr chars!"(\n    \\hello\n    test\n    \\test{\n        test\n        [\n    }\n)" = fail 6 (.unclosedScope .square) := by decide +kernel

/-- src/tests/ast1.rs:90-128 `construct`. -/
example :
    let d1 := (Document.push [] (.text chars!"hello world\n")).2
    let d2 := (Document.push d1 (.command (.mk chars!"command" []))).2
    let d3 := (Document.push d2 (.text chars!"continuation\n")).2
    let d4 := (Document.push d3 (.text chars!"text should be merged into one chunk")).2
    d4 = [.mk 1 (.text chars!"hello world\n"), .mk 2 (.command (.mk chars!"command" [])),
      .mk 2 (.text chars!"continuation\ntext should be merged into one chunk")] := by
  decide +kernel

/-- The document of src/tests/ast1.rs:130-154 `lines`. -/
def basicSrc : Str := chars!"Hello world\n\n\\textbf {\n\\container(123)\n[456]\ntext\n}\n\ntext\n\n{ \\sin text \\sin }\n\nBye!"

/-- src/tests/ast1.rs:206-306 `basic`: the expected chunks. -/
def basicAst : Document :=
  [.mk 1 (.text chars!"Hello world\n\n"),
   .mk 3 (.command (.mk chars!"textbf" [(chars!" ", .mk
      [.mk 1 (.text chars!"\n"),
       .mk 2 (.command (.mk chars!"container"
          [([], .mk [.mk 1 (.text chars!"123")] .round),
           (chars!"\n", .mk [.mk 1 (.text chars!"456")] .square)])),
       .mk 3 (.text chars!"\ntext\n")] .curly)])),
   .mk 7 (.text chars!"\n\ntext\n\n"),
   .mk 11 (.scope (.mk
      [.mk 1 (.text chars!" "), .mk 1 (.command (.mk chars!"sin" [])), .mk 1 (.text chars!" text "),
       .mk 1 (.command (.mk chars!"sin" [])), .mk 1 (.text chars!" ")] .curly)),
   .mk 11 (.text chars!"\n\nBye!")]

example : fromStr basicSrc = .ok basicAst := by decide +kernel
example : displayChunks basicAst = basicSrc := by decide +kernel
/-- src/tests/ast1.rs:130-154 `lines`. -/
example : Document.lines basicAst = 13 := by decide +kernel
/-- src/tests/ast1.rs:156-190 `incorrect_line`. -/
example : (Document.pushChunk basicAst (.mk 11 (.text chars!"hello"))).1 =
    .error (.incorrectChunkLineNumber 13 11) := by decide +kernel
/-- src/tests/ast1.rs:192-200 `unsanitised_char`. -/
example : (Document.push [] (.text chars!"hello\\world")).1 =
    .error (.unsanitisedCharInString '\\') := by decide +kernel
end

/-! ## src/tests/ast2.rs -/
section
open Ast2

/-- src/tests/ast2.rs:10-30 `no_environment_label`. -/
example : fromStr chars!"\\usepackage{amsmath}\n\n\\begin{document}\n    Hello\n    \\begin\n        \\item test\n    \\end{itemize}\n\\end{document}" = fail 5 .noEnvironmentLabel := by decide +kernel
/-- src/tests/ast2.rs:32-54 `unexpected_end`. -/
example : fromStr chars!"\\usepackage{amsmath}\n\n\\begin{document}\n    Hello\n        \\item test\n    \\end{itemize}\n\\end{document}" = fail 6 (.unexpectedEnd chars!"itemize") := by decide +kernel
/-- src/tests/ast2.rs:56-77 `too_many_args_end`. -/
example : fromStr chars!"\\usepackage{amsmath}\n\n\\begin{document}\n    Hello\n    \\begin{itemize}\n        \\item test\n    \\end{itemize}{boom}\n\\end{document}" = fail 7 .tooManyArgsEnd := by decide +kernel
/-- src/tests/ast2.rs:118-147 `incorrect_line`. -/
example : (match fromStr Fidelity.basicSrc with
    | .ok d => some (Document.pushChunk d (.mk 11 (.text chars!"hello"))).1
    | .error _ => none) = some (.error (.incorrectChunkLineNumber 13 11)) := by decide +kernel
/-- src/tests/ast2.rs:149-157 `unsanitised_char`. -/
example : (Document.push [] (.text chars!"hello\\world")).1 =
    .error (.unsanitisedCharInString '\\') := by decide +kernel

/-- The document of src/tests/ast2.rs:159-178 `lines`, 180-273 `basic`. -/
def basicSrc2 : Str := chars!"\\usepackage{amsmath}\n\n\\begin{document}\n    Hello\n    \\begin{itemize}\n        \\item test\n    \\end{itemize}\n\\end{document}"

/-- src/tests/ast2.rs:196-268: the expected chunks. -/
def basicAst2 : Document :=
  [.mk 1 (.command (.mk chars!"usepackage" [([], .mk [.mk 1 (.text chars!"amsmath")] .curly)])),
   .mk 1 (.text chars!"\n\n"),
   .mk 3 (.environment (.mk chars!"document" []
     [.mk 1 (.text chars!"\n    Hello\n    "),
      .mk 3 (.environment (.mk chars!"itemize" []
        [.mk 1 (.text chars!"\n        "), .mk 2 (.command (.mk chars!"item" [])),
         .mk 2 (.text chars!" test\n    ")] [] [])),
      .mk 5 (.text chars!"\n")] [] []))]

example : fromStr basicSrc2 = .ok basicAst2 := by decide +kernel
example : Document.new basicAst2 = .ok basicAst2 := by decide +kernel
example : Document.lines basicAst2 = 8 := by decide +kernel
example : toAst1 basicAst2 = Ast1.fromStr basicSrc2 := by decide +kernel
example : displayChunks basicAst2 = basicSrc2 := by decide +kernel
end

/-! ## src/tests/ast3.rs -/
section
open Ast3

/-- The document of src/tests/ast3.rs:8-167 `basic`. -/
def basicSrc3 : Str := chars!"\\documentclass{article}\n\n\\usepackage{amsmath}\n\n\\begin{document}\n    Hello\n    \\begin{itemize}{item}\n        \\item test\n        \\item test2\n        \\item test3 $$hello\n\nworld$$\n    \\end{itemize}\n\\end{document}"

/-- src/tests/ast3.rs:28-163: the expected document. -/
def basicAst3 : Document where
  documentclass := some chars!"article"
  documentoptions := []
  preamable :=
    [.mk 1 (.command (.mk chars!"documentclass" [([], .mk [.mk 1 (.text chars!"article")] .curly)])),
     .mk 1 (.paragraphBreak chars!"\n\n"),
     .mk 3 (.command (.mk chars!"usepackage" [([], .mk [.mk 1 (.text chars!"amsmath")] .curly)])),
     .mk 3 (.paragraphBreak chars!"\n\n")]
  body :=
    [.mk 1 (.text chars!"\n    Hello\n    "),
     .mk 3 (.environment (.mk chars!"itemize" [([], .mk [.mk 1 (.text chars!"item")] .curly)]
       [.mk 1 (.text chars!"\n        "), .mk 2 (.command (.mk chars!"item" [])),
        .mk 2 (.text chars!" test\n        "), .mk 3 (.command (.mk chars!"item" [])),
        .mk 3 (.text chars!" test2\n        "), .mk 4 (.command (.mk chars!"item" [])),
        .mk 4 (.text chars!" test3 "),
        .mk 4 (.mathsBlock (.mk .dollars .outline
          [.mk 1 (.text chars!"hello"), .mk 1 (.paragraphBreak chars!"\n\n"),
           .mk 3 (.text chars!"world")])),
        .mk 6 (.text chars!"\n    ")] [] [])),
     .mk 9 (.text chars!"\n")]
  bodyArgs := []
  bodyBeginPrec := []
  bodyEndPrec := []
  trailing := []

set_option maxRecDepth 4000 in
example : fromStr basicSrc3 = .ok basicAst3 := by decide +kernel
example : Document.new basicAst3 = .ok basicAst3 := by decide +kernel
example : Document.display basicAst3 = basicSrc3 := by decide +kernel
/-- src/tests/ast3.rs:169-175 `begin_command`. -/
example : Command.new chars!"begin" [] = .error .beginCommand := by decide +kernel
/-- src/tests/ast3.rs:177-183 `end_command`. -/
example : Command.new chars!"end" [] = .error .endCommand := by decide +kernel
/-- src/tests/ast3.rs:185-191 `paragraphbreak_tooshort`. -/
example : Chunk.new 1 (.paragraphBreak chars!"\n") = .error .paragraphBreakTooShort := by
  decide +kernel
/-- src/tests/ast3.rs:193-199 `paragraphbreak_nonwhitespace`. -/
example : Chunk.new 1 (.text chars!"\n\n") = .error .unbrokenParagraph := by decide +kernel
end

end LatexAst.Fidelity
