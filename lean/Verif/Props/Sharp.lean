import Verif.Props.PrintsBack3
import Verif.Props.Trouble
import Verif.Props.Chain
import Verif.Props.Exact
import Verif.Props.Fault
import Verif.Props.BackLines
import Verif.Props.Paragraphs
import Verif.Props.Maths
import Verif.Props.Sections
import Verif.Props.Total3
import Verif.Props.RoundTrip1
import Verif.Props.Building

/-!
# What the code does where a simpler property fails

C76 to C93 say exactly what holds where one of C01, C02, C06, .. is false of the code: the exact condition, or the exact
result in every case. They are full statements, not parts of one. Each is proved elsewhere, under the name of the property
that it replaces; the definitions they use are in `Spec/`.
-/

namespace LatexAst.Ast1
open Spec

/-- C76: which sources are printed back by stage 1, exactly: an accepted source is printed back as it is if and only if it
is `Verbatim`. -/
theorem C76 (s : Str) (d : Document) (h : fromStr s = .ok d) : displayChunks d = s ↔ Verbatim s :=
  C01_same_partial s d h

/-- C76, with comments (free of backslashes): a source is accepted and printed back without its comments, and otherwise as it
is, if and only if what is left without the comments is `Verbatim`. -/
theorem C76_comments (s : Str) (hs : NoBackslashInComments s) :
    (∃ d, fromStr s = .ok d ∧ displayChunks d = stripComments s) ↔ Verbatim (stripComments s) :=
  C01_exact_partial s hs

/-- C77: what comments do, exactly: each amounts to its first backslash, or to nothing if it has none. -/
theorem C77 (s : Str) : fromStr s = fromStr (keepBackslashes s) :=
  C02_exact_partial s

/-- C77: comments without backslashes have no effect, whether the source is accepted or rejected. -/
theorem C77_none (s : Str) (h : NoBackslashInComments s) : fromStr s = fromStr (stripComments s) :=
  C02_partial s h

/-- C78: the line number of every chunk of a parsed document, exactly. -/
theorem C78 (s : Str) (d : Document) (h : fromStr s = .ok d) (lv : List Chunk)
    (hl : Level d lv) (pre post : List Chunk) (c : Chunk) (he : lv = pre ++ c :: post) :
    -- the command `\`+newline is numbered one line too late
    ((∃ args, c.variant = .command (.mk ['\n'] args)) →
      c.lineNo = 1 + (displayChunks pre).count '\n' + 1) ∧
    -- a final blank text after a letter command is numbered with its last line
    (∀ t, c.variant = .text t → post = [] → Blank t → EndsWithLetterCommand pre →
      c.lineNo = 1 + (displayChunks pre).count '\n' + t.count '\n') ∧
    -- every other chunk is numbered correctly
    ((¬ ∃ args, c.variant = .command (.mk ['\n'] args)) →
      (¬ ∃ t, c.variant = .text t ∧ post = [] ∧ Blank t ∧ EndsWithLetterCommand pre) →
      c.lineNo = 1 + (displayChunks pre).count '\n') :=
  C06_partial s d h lv hl pre post c he

/-- C79: which parsed documents validate, exactly. -/
theorem C79 (s : Str) (d : Document) (h : fromStr s = .ok d) :
    Document.validate d = .ok () ↔
      NumberedFrom 1 d ∧ ∀ t, Within d (.text t) → ∀ x ∈ t, x ∉ ['}', ']', ')'] :=
  C11_partial s d h

/-- C80: which parsed documents are read back from their printed form, exactly. -/
theorem C80 (s : Str) (d : Document) (h : fromStr s = .ok d) :
    fromStr (displayChunks d) = .ok d ↔ NoScopeInCurlyArgument d ∧ NoCloserInScope d :=
  C14_exact_partial s d h

/-- C80: which documents (built in any way) keep their text when they are printed, parsed and printed again, exactly. -/
theorem C80_text (d : Document) :
    (∃ d', fromStr (displayChunks d) = .ok d' ∧ displayChunks d' = displayChunks d) ↔ Verbatim (displayChunks d) :=
  C19_exact_partial d

end LatexAst.Ast1

namespace LatexAst.Ast2
open Spec
open LatexAst.Ast1 (Displaced Checked Matched)

/-- C81: which problem stage 2 reports, and on which line, exactly (`Fault`). -/
theorem C81 (s : Str) (d : Ast1.Document) (hd : Ast1.fromStr s = .ok d) (L : Nat) (t : ErrorType) :
    fromStr s = .error (.err ⟨L, t⟩) ↔ ∃ q k n, Fault d q k n t ∧ L + n = 1 + q.count '\n' + k :=
  C25_exact_partial s d hd L t

/-- C81: where the problem is: after the part `q` of the printed document. -/
theorem C81_place (d : Ast1.Document) (q : Str) (k n : Nat) (t : ErrorType) (h : Fault d q k n t) :
    q <+: Ast1.displayChunks d ∧ n ≤ q.count '\n' :=
  C25_place d q k n t h

/-- C81: when the line reported is the line of the problem, exactly. -/
theorem C81_correct (s : Str) (d : Ast1.Document) (hd : Ast1.fromStr s = .ok d) (q : Str) (k n : Nat)
    (t : ErrorType) (h : Fault d q k n t) : fromStr s = .error (.err ⟨1 + q.count '\n', t⟩) ↔ k = n :=
  C25_correct_iff_partial s d hd q k n t h

/-- C82: what going to stage 2 and back does to the line numbers, exactly: each `\begin` and its `\end` move down by the line
breaks in the arguments of the `\begin`, and nothing else changes. -/
theorem C82 (s : Str) (d : Ast1.Document) (e : Document) (hd : Ast1.fromStr s = .ok d)
    (he : tryFrom d = .ok e) : ∃ d', toAst1 e = .ok d' ∧ Displaced d d' :=
  C26_displaced_partial s d e hd he

/-- C82: when going to stage 2 and back gives the same document, exactly. -/
theorem C82_same (s : Str) (d : Ast1.Document) (e : Document) (hd : Ast1.fromStr s = .ok d) (he : tryFrom d = .ok e) :
    toAst1 e = .ok d ↔ ∀ lv l args, Checked d lv → .mk l (.command (.mk chars!"begin" args)) ∈ lv →
      '\n' ∉ Ast1.displayArgs args :=
  C26_exact_partial s d e hd he

/-- C83: when going from stage 2 to stage 1 keeps the text, exactly. -/
theorem C83 (e : Document) (d : Ast1.Document) (h : toAst1 e = .ok d) :
    Ast1.displayChunks d = displayChunks e ↔
      ∀ label args content pb pe, Within e (.environment (.mk label args content pb pe)) → ReadableLabel label :=
  C27_exact_partial e d h

/-- C83: the text never gets longer. -/
theorem C83_length (e : Document) (d : Ast1.Document) (h : toAst1 e = .ok d) :
    (Ast1.displayChunks d).length ≤ (displayChunks e).length :=
  C27_length_partial e d h

/-- C84: the line numbers in a converted document, exactly for environments. -/
theorem C84 (s : Str) (e : Document) (h : fromStr s = .ok e) (lv : List Chunk) (hl : Level e lv)
    (pre : List Chunk) (c : Chunk) (post : List Chunk) (he : lv = pre ++ c :: post) :
    -- an environment
    (∀ label args content pb pe, c.variant = .environment (.mk label args content pb pe) →
      c.lineNo = 1 + (displayChunks pre).count '\n' + (pb ++ label ++ displayArgs args).count '\n') ∧
    -- a scope, or a command other than `\`+newline
    ((∀ t, c.variant ≠ .text t) → (∀ args, c.variant ≠ .command (.mk ['\n'] args)) →
      (∀ x, c.variant ≠ .environment x) → c.lineNo = 1 + (displayChunks pre).count '\n') ∧
    -- any chunk
    1 + (displayChunks pre).count '\n' ≤ c.lineNo ∧
    c.lineNo ≤ 1 + (displayChunks pre).count '\n' + c.display.count '\n' :=
  C30_partial s e h lv hl pre c post he

end LatexAst.Ast2

namespace LatexAst.Ast3
open Spec

/-- C85: the line numbers of the pieces of a text, exactly. -/
theorem C85 (n : Nat) (t : Str) (pre post : List Chunk) (c : Chunk)
    (h : paragraphs [.mk n (.text t)] = pre ++ c :: post) :
    c.lineNo = n + (displayChunks pre).count '\n' +
      (match c.variant with
        | .paragraphBreak b => if 3 ≤ b.count '\n' then b.count '\n' - 1 else 0
        | _ => 0) :=
  C34_partial n t pre post c h

/-- C86: which sources stage 3 prints back, exactly. -/
theorem C86 (s : Str) (f : Document) (h : fromStr s = .ok f) :
    f.display = s ↔ Ast1.Verbatim s ∧ ∃ e, Ast2.fromStr s = .ok e ∧ KeptByStage3 e :=
  C35_verbatim_partial s f h

/-- C86: when the stage-3 conversion of a sequence of chunks keeps its text, exactly. -/
theorem C86_chunks (cs : List Ast2.Chunk) (out : List Chunk) (h : mathsFromChunks cs = .ok out) :
    displayChunks out = Ast2.displayChunks cs ↔ KeepsText cs :=
  C35_maths_exact_partial cs out h

/-- C86: when the stage-3 conversion of a document with one document environment keeps its text, exactly. -/
theorem C86_document (pre post : List Ast2.Chunk) (l : Nat) (args : List (Str × Ast2.Scope)) (content : List Ast2.Chunk)
    (pb : Str) (f : Document)
    (h : tryFrom (pre ++ .mk l (.environment (.mk chars!"document" args content pb pb)) :: post) = .ok f)
    (hpre : ∀ c ∈ pre, isBody c = false) (hpost : ∀ c ∈ post, isBody c = false) :
    f.display = Ast2.displayChunks (pre ++ .mk l (.environment (.mk chars!"document" args content pb pb)) :: post) ↔
      KeepsText pre ∧ (∀ x ∈ args, KeepsText x.2.chunks) ∧ KeepsText content ∧ KeepsText post :=
  C35_exact_partial pre post l args content pb f h hpre hpost

/-- C86: which stage-3 documents are read back from their printed form, exactly. -/
theorem C86_read_back (f : Document) :
    fromStr f.display = .ok f ↔ ∃ e, tryFrom e = .ok f ∧ Ast2.Canonical e ∧ KeptByStage3 e :=
  C72_exact_partial f

/-- C87: what bracket maths (without dollar signs) is accepted, what it becomes, and what is rejected, exactly. -/
theorem C87 (cs : List Ast2.Chunk) (h : DollarFree cs) :
    (∀ r, mathsFromChunks cs = .ok r ↔ ∃ out, Converts false cs out ∧ r = paragraphs out) ∧
    (∀ e, mathsFromChunks cs = .error (.err e) ↔ Rejected cs e) ∧
    ((∃ r, mathsFromChunks cs = .ok r) ∨ ∃ e, mathsFromChunks cs = .error (.err e)) :=
  C37_partial cs h

/-- C88: what the conversion from stage 3 to stage 2 prints when it returns. -/
theorem C88 (f : Document) (e : Ast2.Document) (h : toAst2 f = .ok e) :
    Ast2.displayChunks e = f.written ∧ (f.bodyBeginPrec = f.bodyEndPrec → Ast2.displayChunks e = f.display) :=
  C41_partial f e h

/-- C88: when the conversion from stage 3 to stage 2 returns, exactly; otherwise it panics. -/
theorem C88_returns (f : Document) :
    (f.MathsPositive ∧ '\n' ∈ ({ f with trailing := [] } : Document).written → ∃ e, toAst2 f = .ok e) ∧
    (¬ (f.MathsPositive ∧ '\n' ∈ ({ f with trailing := [] } : Document).written) → toAst2 f = .error .panic) :=
  C41_returns_partial f

/-- C88: when that is the printed form of the stage-3 document, exactly. -/
theorem C88_same (f : Document) (e : Ast2.Document) (h : toAst2 f = .ok e) :
    Ast2.displayChunks e = f.display ↔ f.bodyBeginPrec = f.bodyEndPrec :=
  C41_exact_partial f e h

/-- C89: which sources make the stage-3 parser panic, exactly. -/
theorem C89_panic (s : Str) : fromStr s = .error .panic ↔
    ∃ e part fr b rest, Ast2.fromStr s = .ok e ∧ Attempted e part ∧ First part fr ∧ Passes 0 fr b rest ∧ Overflows rest :=
  C42_exact_partial s

/-- C89: which sources the stage-3 parser rejects, with which error on which line, exactly. -/
theorem C89_error (s : Str) (x : Error) : fromStr s = .error (.err x) ↔
    Ast2.fromStr s = .error (.err x) ∨ ∃ e, Ast2.fromStr s = .ok e ∧ (BadClass e x ∨
      ∃ part fr b rest, Attempted e part ∧ First part fr ∧ Passes 0 fr b rest ∧ Stuck b rest x) :=
  C46_exact_partial s x

/-- C89: which sources the stage-3 parser accepts, exactly. -/
theorem C89_ok (s : Str) : (∃ d, fromStr s = .ok d) ↔ ∃ e, Ast2.fromStr s = .ok e ∧ (∀ x, ¬ BadClass e x) ∧
    ∀ part fr b rest, Attempted e part → First part fr → Passes 0 fr b rest → ¬ Overflows rest ∧ ∀ x, ¬ Stuck b rest x :=
  C46_accepts_partial s

/-- C90: the sections of a document with any number of document environments, exactly. -/
theorem C90 (pre mid post : List Ast2.Chunk) (l : Nat) (args : List (Str × Ast2.Scope))
    (content : List Ast2.Chunk) (pb pe : Str) (f : Document)
    (h : tryFrom (pre ++ (mid ++ .mk l (.environment (.mk chars!"document" args content pb pe)) :: post)) = .ok f)
    (hpre : ∀ c ∈ pre, isBody c = false) (hmid : ∀ c ∈ mid.head?, isBody c = true) (hpost : ∀ c ∈ post, isBody c = false) :
    mathsFromChunks pre = .ok f.preamable ∧ mathsFromChunks content = .ok f.body ∧
    mathsFromChunks (mid.filter (fun c => !isBody c) ++ post) = .ok f.trailing ∧
    f.bodyBeginPrec = pb ∧ f.bodyEndPrec = pe ∧ f.bodyArgs.length = args.length ∧
    ∀ i (hi : i < args.length) (hi' : i < f.bodyArgs.length) p inner sv, args[i] = (p, .mk inner sv) →
      ∃ cs, mathsFromChunks inner = .ok cs ∧ f.bodyArgs[i] = (p, .mk cs sv) :=
  C45_many_partial pre mid post l args content pb pe f h hpre hmid hpost

/-- C90: the sections of a document without document environment. -/
theorem C90_none (e : Ast2.Document) (f : Document) (h : tryFrom e = .ok f) (hb : ∀ c ∈ e, isBody c = false) :
    mathsFromChunks e = .ok f.preamable ∧ f.body = [] ∧ f.trailing = [] ∧ f.bodyArgs = [] ∧
      f.bodyBeginPrec = [] ∧ f.bodyEndPrec = [] :=
  C45_no_body e f h hb

/-- C91: when a document built by checked calls validates, exactly. -/
theorem C91 (history : List Op) :
    Document.validate (history.foldl Op.apply Document.default) = .ok () ↔
      ∀ (sec : Section) l s, .mk l (.text s) ∈ sec.get (history.foldl Op.apply Document.default) → ¬ Spec.ParagraphGap s :=
  C43_exact_partial history

/-- C92: when a parsed stage-3 document converts all the way back to stage 1, exactly, and what it then prints. -/
theorem C92 (s : Str) (f : Document) (e : Ast2.Document) (hf : fromStr s = .ok f) (he : toAst2 f = .ok e) :
    (f.body = [] ∨ '\n' ∈ displayChunks f.preamable → ∃ d, Ast2.toAst1 e = .ok d ∧ Ast1.displayChunks d = f.written) ∧
    (¬ (f.body = [] ∨ '\n' ∈ displayChunks f.preamable) → Ast2.toAst1 e = .error .panic) :=
  C65_partial s f e hf he

/-- C93: when `lines()` of a stage-3 document counts its printed lines, exactly. -/
theorem C93 (d : Document) :
    d.lines = d.display.count '\n' + 1 ↔ '\n' ∉ displayArgs d.bodyArgs ∧ '\n' ∉ d.bodyBeginPrec :=
  C20_document_iff_partial d

/-- C93: by how much it differs otherwise. -/
theorem C93_difference (d : Document) :
    d.display.count '\n' + 1 =
      d.lines + (displayArgs d.bodyArgs).count '\n' + 2 * d.bodyBeginPrec.count '\n' :=
  C20_document_partial d

end LatexAst.Ast3
