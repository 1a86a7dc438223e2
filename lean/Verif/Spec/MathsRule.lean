import Verif.Spec.Maths

/-!
# Specification: what the stage-3 maths conversion does, on every input

`Yields b cs o`: converting the stage-2 chunks `cs` has the outcome `o` (before texts are split into
paragraphs); `b` is the line of the last bracket maths before `cs`, or 0. Unlike `Converts` of
`Spec/Maths.lean` this covers every sequence of chunks: formulas that run over several texts, errors and
panics. It has no modes, no buffers and no depth counter.
-/

namespace LatexAst.Ast3

/-- What converting gives: chunks, an error, or a panic. -/
abbrev Outcome := Res (List Chunk)

/-- Chunks before an outcome. -/
def before (pre : List Chunk) : Outcome → Outcome
  | .ok cs => .ok (pre ++ cs)
  | .error f => .error f

/-- A place inside a formula: `pending` was read in the current text, since `line`; `text` is what remains
of the current text, and `rest` are the chunks after it. -/
structure Place where
  line : Nat
  pending : Str
  text : Str
  rest : List Ast2.Chunk

/-- The chunk is not a text. -/
def NotText (c : Ast2.Chunk) : Prop := ∀ t, c.variant ≠ .text t

/-- `ToDollar p lost kept p'`: the next dollar sign after the place `p` is right before the place `p'`. On the
way there, `kept` are the chunks that are not texts; `lost` are the texts that were left behind: what is
pending when a text ends does not become part of the formula. -/
inductive ToDollar : Place → List Chunk → List Ast2.Chunk → Place → Prop
  /-- in the same text -/
  | here {l q x r rest} : '$' ∉ x → ToDollar ⟨l, q, x ++ '$' :: r, rest⟩ [] [] ⟨l, q ++ x, r, rest⟩
  /-- in a later text -/
  | later {l q x ms l' t rest lost kept p} : '$' ∉ x → (∀ m ∈ ms, NotText m) →
      ToDollar ⟨l', [], t, rest⟩ lost kept p →
      ToDollar ⟨l, q, x, ms ++ .mk l' (.text t) :: rest⟩ (textIf l (q ++ x) ++ lost) (ms ++ kept) p

/-- There is no dollar sign after the place. -/
def NoDollar (p : Place) : Prop := '$' ∉ p.text ∧ ∀ l t, .mk l (.text t) ∈ p.rest → '$' ∉ t

/-- `Formula p lost type content p'`: right after a dollar sign that opens a formula at the place `p`, the formula
is of this type and has this content, and it ends right before the place `p'`; `lost` is left behind. -/
inductive Formula : Place → List Chunk → MathsType → List Ast2.Chunk → Place → Prop
  /-- `$x$`: the next dollar sign closes the formula, unless there would be nothing in it -/
  | inline {p lost kept p'} : ToDollar p lost kept p' → kept ≠ [] ∨ p'.pending ≠ [] →
      Formula p lost .inline (kept ++ textIf2 p'.line p'.pending) p'
  /-- `$$x$y$`: the next dollar sign belongs to the opening, the third after it closes the formula -/
  | display {p lost₁ p₁ lost₂ kept₂ p₂ lost₃ kept₃ p₃} : ToDollar p lost₁ [] p₁ → p₁.pending = [] →
      ToDollar p₁ lost₂ kept₂ p₂ → ToDollar p₂ lost₃ kept₃ p₃ →
      Formula p (lost₁ ++ lost₂ ++ lost₃) .outline (kept₂ ++ kept₃ ++ textIf2 p₃.line p₃.pending) p₃

/-- The formula opened right before this place is not closed. -/
inductive Unfinished : Place → Prop
  | single {p} : NoDollar p → Unfinished p
  | double {p lost p₁} : ToDollar p lost [] p₁ → p₁.pending = [] → NoDollar p₁ → Unfinished p
  | half {p lost p₁ lost₂ kept₂ p₂} : ToDollar p lost [] p₁ → p₁.pending = [] → ToDollar p₁ lost₂ kept₂ p₂ →
      NoDollar p₂ → Unfinished p

/-- The line numbers of a formula can be counted from `line`: none is more than one line above it. -/
def Countable (line : Nat) (content : List Ast2.Chunk) : Prop :=
  content = [] ∨ (1 ≤ line ∧ ∀ c ∈ content, line ≤ c.lineNo + 1)

/-- The chunk with its line counted from `line`, starting with 1. -/
def countFrom (line : Nat) : Ast2.Chunk → Ast2.Chunk
  | .mk l v => .mk (l - (line - 1)) v

/-- A maths block with what was left behind before it, and the rest after it. -/
def blockOutcome (pre : List Chunk) (l : Nat) (v : MathsVariant) (type : MathsType) (content rest : Outcome) : Outcome :=
  match content with
  | .error f => .error f
  | .ok cs => before (pre ++ [.mk l (.mathsBlock (.mk v type (paragraphs cs)))]) rest

/-- Arguments, from the outcomes of their contents; the first failure counts. -/
def argOutcome : List ((Str × Ast2.Scope) × Outcome) → Res (List (Str × Scope))
  | [] => .ok []
  | ((p, sc), o) :: r =>
    match o with
    | .error f => .error f
    | .ok inner =>
      match argOutcome r with
      | .error f => .error f
      | .ok args => .ok ((p, .mk (paragraphs inner) sc.variant) :: args)

/-- A scope before the rest. -/
def scopeOutcome (l : Nat) (sv : ScopeVariant) (inner rest : Outcome) : Outcome :=
  match inner with
  | .error f => .error f
  | .ok cs => before [.mk l (.scope (.mk (paragraphs cs) sv))] rest

/-- A command before the rest. -/
def commandOutcome (l : Nat) (label : Str) (items : List ((Str × Ast2.Scope) × Outcome)) (rest : Outcome) : Outcome :=
  match argOutcome items with
  | .error f => .error f
  | .ok args => before [.mk l (.command (.mk label args))] rest

/-- An environment before the rest; its arguments are converted before its content. -/
def environmentOutcome (l : Nat) (label pb pe : Str) (items : List ((Str × Ast2.Scope) × Outcome))
    (content rest : Outcome) : Outcome :=
  match argOutcome items with
  | .error f => .error f
  | .ok args =>
    match content with
    | .error f => .error f
    | .ok cs => before [.mk l (.environment (.mk label args (paragraphs cs) pb pe))] rest

/-- The conversion of a sequence of chunks. -/
inductive Yields : Nat → List Ast2.Chunk → Outcome → Prop
  | nil {b} : Yields b [] (.ok [])
  /-- a text without dollar signs -/
  | text {b l t cs o} : '$' ∉ t → Yields b cs o → Yields b (.mk l (.text t) :: cs) (before (textIf l t) o)
  /-- a dollar formula: its content, numbered from the line of the text in which it is closed (or from where it is
  opened, if that is the same text), is converted on its own; then comes the rest of the text in which it is closed -/
  | formula {b l q r cs lost type content p i o} : '$' ∉ q →
      Formula ⟨l + q.count '\n', [], r, cs⟩ lost type content p → Countable p.line content →
      Yields 0 (content.map (countFrom p.line)) i →
      Yields b (.mk (p.line + p.pending.count '\n') (.text p.text) :: p.rest) o →
      Yields b (.mk l (.text (q ++ '$' :: r)) :: cs) (blockOutcome (textIf l q ++ lost) p.line .dollars type i o)
  /-- a dollar formula whose lines cannot be counted -/
  | uncountable {b l q r cs lost type content p} : '$' ∉ q →
      Formula ⟨l + q.count '\n', [], r, cs⟩ lost type content p → ¬ Countable p.line content →
      Yields b (.mk l (.text (q ++ '$' :: r)) :: cs) (.error .panic)
  /-- a dollar formula that is not closed: reported on the line of the last bracket maths before it, or 0 -/
  | unfinished {b l q r cs} : '$' ∉ q → Unfinished ⟨l + q.count '\n', [], r, cs⟩ →
      Yields b (.mk l (.text (q ++ '$' :: r)) :: cs) (.error (.err ⟨b, .unclosedMaths⟩))
  /-- `\( .. \)` and `\[ .. \]`; brackets of the same kind inside are dropped -/
  | brackets {b k l args body inner l' args' cs i o} : Inside k body inner → Yields 0 inner i → Yields l cs o →
      Yields b (.mk l (.command (.mk (openLabel k) args)) :: (body ++ .mk l' (.command (.mk (closeLabel k) args')) :: cs))
        (blockOutcome [] l .brackets k i o)
  /-- `\(` or `\[` that is not closed -/
  | unclosed {b k l args body} : Unclosed k body →
      Yields b (.mk l (.command (.mk (openLabel k) args)) :: body) (.error (.err ⟨l, .unclosedMaths⟩))
  /-- `\)` or `\]` outside maths -/
  | unexpected {b k l args cs} :
      Yields b (.mk l (.command (.mk (closeLabel k) args)) :: cs) (.error (.err ⟨l, .unexpectedMathsEnd⟩))
  | scope {b l inner sv cs i o} : Yields 0 inner i → Yields b cs o →
      Yields b (.mk l (.scope (.mk inner sv)) :: cs) (scopeOutcome l sv i o)
  | command {b l label cs o} {items : List ((Str × Ast2.Scope) × Outcome)} : ¬ IsDelimiter label →
      (∀ x ∈ items, Yields 0 x.1.2.chunks x.2) → Yields b cs o →
      Yields b (.mk l (.command (.mk label (items.map (·.1)))) :: cs) (commandOutcome l label items o)
  | environment {b l label body pb pe cs i o} {items : List ((Str × Ast2.Scope) × Outcome)} :
      (∀ x ∈ items, Yields 0 x.1.2.chunks x.2) → Yields 0 body i → Yields b cs o →
      Yields b (.mk l (.environment (.mk label (items.map (·.1)) body pb pe)) :: cs)
        (environmentOutcome l label pb pe items i o)

/-- The outcome with its texts split into paragraphs. -/
def inParagraphs : Outcome → Outcome
  | .ok cs => .ok (paragraphs cs)
  | .error f => .error f

end LatexAst.Ast3
