import Verif.Model.Conv3
import Verif.Spec.Tree

/-!
# Specification: maths in a stage-2 chunk sequence

`Converts strict cs out`: the chunk sequence `cs` is well formed as far as maths is concerned, and means
`out` (before it is split into paragraphs). With `strict` no text is lost: maths delimiters have no arguments,
bracket maths does not contain brackets of its own kind, and display maths is closed by two adjacent dollars.
-/

namespace LatexAst.Ast3

/-- The label of the command that opens bracket maths: `\(` or `\[`. -/
def openLabel : MathsType → Str
  | .inline => chars!"("
  | .outline => chars!"["

/-- The label of the command that closes bracket maths: `\)` or `\]`. -/
def closeLabel : MathsType → Str
  | .inline => chars!")"
  | .outline => chars!"]"

/-- `\(`, `\)`, `\[` or `\]`. -/
def IsDelimiter (label : Str) : Prop := label ∈ [chars!"(", chars!")", chars!"[", chars!"]"]

instance (l : Str) : Decidable (IsDelimiter l) := by unfold IsDelimiter; infer_instance

/-- A text, if it is not empty. -/
def textIf (l : Nat) (t : Str) : List Chunk := if t = [] then [] else [.mk l (.text t)]

/-- A stage-2 text, if it is not empty. -/
def textIf2 (l : Nat) (t : Str) : List Ast2.Chunk := if t = [] then [] else [.mk l (.text t)]

/-- The chunk is not an opening or closing command of this kind. -/
def NotOfKind (k : MathsType) (c : Ast2.Chunk) : Prop :=
  ∀ args, c.variant ≠ .command (.mk (openLabel k) args) ∧ c.variant ≠ .command (.mk (closeLabel k) args)

/-- `Inside k body inner`: the brackets of kind `k` in `body` match, and `inner` is `body` without them. -/
inductive Inside (k : MathsType) : List Ast2.Chunk → List Ast2.Chunk → Prop
  | nil : Inside k [] []
  | other {c body inner} : NotOfKind k c → Inside k body inner → Inside k (c :: body) (c :: inner)
  | nested {l args b1 i1 l' args' b2 i2} : Inside k b1 i1 → Inside k b2 i2 →
      Inside k (.mk l (.command (.mk (openLabel k) args)) :: (b1 ++ .mk l' (.command (.mk (closeLabel k) args')) :: b2))
        (i1 ++ i2)

/-- The arguments with their contents replaced. -/
def withContents : List (Str × Ast2.Scope) → List (List Chunk) → List (Str × Scope)
  | (p, .mk _ sv) :: r, c :: cs => (p, .mk (paragraphs c) sv) :: withContents r cs
  | _, _ => []

/-- Well-formed maths, and what it means. The text of a chunk is consumed from the left, so what remains of a text
after a maths block is again a text chunk, on the line where the block ends. -/
inductive Converts (strict : Bool) : List Ast2.Chunk → List Chunk → Prop
  | nil : Converts strict [] []
  /-- text without dollars -/
  | text {l t rest out} : '$' ∉ t → Converts strict rest out →
      Converts strict (.mk l (.text t) :: rest) (textIf l t ++ out)
  /-- `p$x$r` -/
  | inline {l p x r rest out} : '$' ∉ p → '$' ∉ x → x ≠ [] → 1 ≤ l →
      Converts strict (.mk (l + p.count '\n' + x.count '\n') (.text r) :: rest) out →
      Converts strict (.mk l (.text (p ++ '$' :: (x ++ '$' :: r))) :: rest)
        (textIf l p ++ .mk (l + p.count '\n') (.mathsBlock (.mk .dollars .inline (paragraphs [.mk 1 (.text x)]))) :: out)
  /-- `p$$x$$r` -/
  | display {l p x r rest out} : '$' ∉ p → '$' ∉ x → 1 ≤ l →
      Converts strict (.mk (l + p.count '\n' + x.count '\n') (.text r) :: rest) out →
      Converts strict (.mk l (.text (p ++ '$' :: '$' :: (x ++ '$' :: '$' :: r))) :: rest)
        (textIf l p ++ .mk (l + p.count '\n') (.mathsBlock (.mk .dollars .outline (paragraphs (textIf 1 x)))) :: out)
  /-- `p$$x$y$r`, only when not strict -/
  | sloppy {l p x y r rest out} : strict = false → '$' ∉ p → '$' ∉ x → '$' ∉ y → y ≠ [] → 1 ≤ l →
      Converts strict (.mk (l + p.count '\n' + (x ++ y).count '\n') (.text r) :: rest) out →
      Converts strict (.mk l (.text (p ++ '$' :: '$' :: (x ++ '$' :: (y ++ '$' :: r)))) :: rest)
        (textIf l p ++ .mk (l + p.count '\n') (.mathsBlock (.mk .dollars .outline (paragraphs [.mk 1 (.text (x ++ y))]))) :: out)
  /-- `p$` commands, scopes and environments `x$r`: the block gets the line of the closing text, and that line must
  not be more than one after the lines of what is inside -/
  | inlineSpan {l p ms l' x r rest content out} : '$' ∉ p → '$' ∉ x → 1 ≤ l' → ms ≠ [] →
      (∀ c ∈ ms, ∀ t, c.variant ≠ .text t) →
      Converts strict (ms ++ textIf2 1 x) content →
      Converts strict (.mk (l' + x.count '\n') (.text r) :: rest) out →
      Converts strict
        (.mk l (.text (p ++ ['$'])) ::
          (ms.map (Ast2.Chunk.shift (l' - 1)) ++ .mk l' (.text (x ++ '$' :: r)) :: rest))
        (textIf l p ++ .mk l' (.mathsBlock (.mk .dollars .inline (paragraphs content))) :: out)
  /-- `p$$` commands, scopes and environments `x$$r` -/
  | displaySpan {l p ms l' x r rest content out} : '$' ∉ p → '$' ∉ x → 1 ≤ l' →
      (∀ c ∈ ms, ∀ t, c.variant ≠ .text t) →
      Converts strict (ms ++ textIf2 1 x) content →
      Converts strict (.mk (l' + x.count '\n') (.text r) :: rest) out →
      Converts strict
        (.mk l (.text (p ++ ['$', '$'])) ::
          (ms.map (Ast2.Chunk.shift (l' - 1)) ++ .mk l' (.text (x ++ '$' :: '$' :: r)) :: rest))
        (textIf l p ++ .mk l' (.mathsBlock (.mk .dollars .outline (paragraphs content))) :: out)
  /-- `\( .. \)` and `\[ .. \]` -/
  | brackets {k l args body inner l' args' rest content out} : Inside k body inner →
      (strict = true → inner = body ∧ args = [] ∧ args' = []) →
      Converts strict inner content → Converts strict rest out →
      Converts strict
        (.mk l (.command (.mk (openLabel k) args)) :: (body ++ .mk l' (.command (.mk (closeLabel k) args')) :: rest))
        (.mk l (.mathsBlock (.mk .brackets k (paragraphs content))) :: out)
  | scope {l inner sv rest content out} : Converts strict inner content → Converts strict rest out →
      Converts strict (.mk l (.scope (.mk inner sv)) :: rest) (.mk l (.scope (.mk (paragraphs content) sv)) :: out)
  | command {l label args contents rest out} : ¬ IsDelimiter label → contents.length = args.length →
      (∀ p inner sv content, ((p, Ast2.Scope.mk inner sv), content) ∈ args.zip contents → Converts strict inner content) →
      Converts strict rest out →
      Converts strict (.mk l (.command (.mk label args)) :: rest)
        (.mk l (.command (.mk label (withContents args contents))) :: out)
  | environment {l label args contents body content pb pe rest out} : contents.length = args.length →
      (∀ p inner sv content, ((p, Ast2.Scope.mk inner sv), content) ∈ args.zip contents → Converts strict inner content) →
      Converts strict body content → Converts strict rest out →
      Converts strict (.mk l (.environment (.mk label args body pb pe)) :: rest)
        (.mk l (.environment (.mk label (withContents args contents) (paragraphs content) pb pe)) :: out)

end LatexAst.Ast3

namespace LatexAst.Ast3

/-- Some bracket of kind `k` is still open at the end of `body` (when one is open at its start). -/
inductive Unclosed (k : MathsType) : List Ast2.Chunk → Prop
  | done {b i} : Inside k b i → Unclosed k b
  | more {b i l args b'} : Inside k b i → Unclosed k b' →
      Unclosed k (b ++ .mk l (.command (.mk (openLabel k) args)) :: b')

/-- `Rejected cs e`: the bracket maths of `cs` is not well formed, the first problem being `e`; what precedes the
problem is well formed. -/
inductive Rejected : List Ast2.Chunk → Error → Prop
  /-- `\)` or `\]` outside maths -/
  | unexpected {pre out k l args post} : Converts false pre out →
      Rejected (pre ++ .mk l (.command (.mk (closeLabel k) args)) :: post) ⟨l, .unexpectedMathsEnd⟩
  /-- `\(` or `\[` that is not closed -/
  | unclosed {pre out k l args body} : Converts false pre out → Unclosed k body →
      Rejected (pre ++ .mk l (.command (.mk (openLabel k) args)) :: body) ⟨l, .unclosedMaths⟩
  /-- in the content of bracket maths -/
  | brackets {pre out k l args body inner l' args' post e} : Converts false pre out → Inside k body inner →
      Rejected inner e →
      Rejected (pre ++ .mk l (.command (.mk (openLabel k) args)) :: (body ++ .mk l' (.command (.mk (closeLabel k) args')) :: post)) e
  /-- in a scope -/
  | scope {pre out l inner sv post e} : Converts false pre out → Rejected inner e →
      Rejected (pre ++ .mk l (.scope (.mk inner sv)) :: post) e
  /-- in an argument of a command -/
  | arg {pre out l label before p inner sv after post e} : Converts false pre out → ¬ IsDelimiter label →
      (∀ q c v, (q, Ast2.Scope.mk c v) ∈ before → ∃ content, Converts false c content) → Rejected inner e →
      Rejected (pre ++ .mk l (.command (.mk label (before ++ (p, .mk inner sv) :: after))) :: post) e
  /-- in an argument of an environment -/
  | envArg {pre out l label before p inner sv after body pb pe post e} : Converts false pre out →
      (∀ q c v, (q, Ast2.Scope.mk c v) ∈ before → ∃ content, Converts false c content) → Rejected inner e →
      Rejected (pre ++ .mk l (.environment (.mk label (before ++ (p, .mk inner sv) :: after) body pb pe)) :: post) e
  /-- in the content of an environment -/
  | envContent {pre out l label args body pb pe post e} : Converts false pre out →
      (∀ q c v, (q, Ast2.Scope.mk c v) ∈ args → ∃ content, Converts false c content) → Rejected body e →
      Rejected (pre ++ .mk l (.environment (.mk label args body pb pe)) :: post) e

/-- No text contains a dollar sign, at any depth. -/
def DollarFree (cs : List Ast2.Chunk) : Prop := ∀ t, Ast2.Within cs (.text t) → '$' ∉ t

/-- Two opening commands of the same kind with no delimiter of that kind between them. -/
def SelfNested (k : MathsType) (cs : List Ast2.Chunk) : Prop :=
  ∃ a l args b l' args' c, (∀ x ∈ b, NotOfKind k x) ∧
    cs = a ++ .mk l (.command (.mk (openLabel k) args)) :: (b ++ .mk l' (.command (.mk (openLabel k) args')) :: c)

/-- The maths delimiters of the sequence have no arguments. -/
def Bare (cs : List Ast2.Chunk) : Prop := ∀ l label args, .mk l (.command (.mk label args)) ∈ cs → IsDelimiter label → args = []

/-- Texts in which the last dollar maths is not closed. -/
inductive OpenDollar : Str → Prop
  /-- `p$x` -/
  | single {p x} : '$' ∉ p → '$' ∉ x → OpenDollar (p ++ '$' :: x)
  /-- `p$$x` -/
  | double {p x} : '$' ∉ p → '$' ∉ x → OpenDollar (p ++ '$' :: '$' :: x)
  /-- `p$$x$y` -/
  | half {p x y} : '$' ∉ p → '$' ∉ x → '$' ∉ y → OpenDollar (p ++ '$' :: '$' :: (x ++ '$' :: y))
  | inline {p x r} : '$' ∉ p → '$' ∉ x → x ≠ [] → OpenDollar r → OpenDollar (p ++ '$' :: (x ++ '$' :: r))
  | display {p x r} : '$' ∉ p → '$' ∉ x → OpenDollar r → OpenDollar (p ++ '$' :: '$' :: (x ++ '$' :: '$' :: r))
  | sloppy {p x y r} : '$' ∉ p → '$' ∉ x → '$' ∉ y → y ≠ [] → OpenDollar r →
      OpenDollar (p ++ '$' :: '$' :: (x ++ '$' :: (y ++ '$' :: r)))

/-- Every text, at any depth, closes the dollar maths it opens. -/
def DollarsClosed (cs : List Ast2.Chunk) : Prop := ∀ t, Ast2.Within cs (.text t) → ¬ OpenDollar t

/-- A dollar formula that goes on for too long: a text that leaves a formula open, then a command, scope or
environment, then a text that contains a dollar and starts at least two lines below it. -/
def LongFormula (cs : List Ast2.Chunk) : Prop :=
  ∃ l₁ t₁ c l₂ t₂, [.mk l₁ (.text t₁), c, .mk l₂ (.text t₂)].Sublist cs ∧ OpenDollar t₁ ∧ '$' ∈ t₂ ∧
    (∀ t, c.variant ≠ .text t) ∧ c.lineNo + 1 < l₂

/-- A maths segment of a text: `$x$` or `$$x$$`. -/
structure Segment where
  type : MathsType
  content : Str

/-- The delimiter of dollar maths. -/
def dollarsOf : MathsType → Str
  | .inline => chars!"$"
  | .outline => chars!"$$"

/-- `$x$` or `$$x$$`. -/
def Segment.source (s : Segment) : Str := dollarsOf s.type ++ s.content ++ dollarsOf s.type

/-- No dollar sign in the content; the content of `$..$` is not empty. -/
def Segment.Ok (s : Segment) : Prop := '$' ∉ s.content ∧ (s.type = .inline → s.content ≠ [])

/-- `p` followed by segments, each with the text after it. -/
def segmentsSource (p : Str) (segs : List (Segment × Str)) : Str := p ++ segs.flatMap fun x => x.1.source ++ x.2

/-- What the text `segmentsSource p segs` on line `l` stands for. -/
def segmentsChunks (l : Nat) (p : Str) : List (Segment × Str) → List Chunk
  | [] => textIf l p
  | (s, q) :: r =>
    textIf l p ++
      .mk (l + p.count '\n') (.mathsBlock (.mk .dollars s.type (paragraphs (textIf 1 s.content)))) ::
        segmentsChunks (l + p.count '\n' + s.content.count '\n') q r

/-- The number of dollar signs in the texts of one sequence. -/
def dollarCount : List Ast2.Chunk → Nat
  | [] => 0
  | .mk _ (.text t) :: cs => t.count '$' + dollarCount cs
  | _ :: cs => dollarCount cs

end LatexAst.Ast3
