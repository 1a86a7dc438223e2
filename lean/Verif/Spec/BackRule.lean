import Verif.Spec.Back
import Verif.Spec.Document
import Verif.Model.Parser1

/-!
# Specification: converting stage 2 to stage 1, and stage 3 to stage 2

`Unfolds e d`: the chunks `e` of the later stage are, in order, the chunks `d` of the earlier stage. Line numbers are
spelled out. `Props/BackRule.lean` proves that the conversions compute exactly this.
-/

namespace LatexAst.Ast1

/-- Adjacent texts put together; the first gives the line number. -/
def joinTexts : List Chunk → List Chunk
  | [] => []
  | .mk l (.text t) :: r =>
    match joinTexts r with
    | .mk _ (.text t') :: r' => .mk l (.text (t ++ t')) :: r'
    | r' => .mk l (.text t) :: r'
  | c :: r => c :: joinTexts r

end LatexAst.Ast1

namespace LatexAst.Ast2

/-- Adjacent texts put together; the first gives the line number. -/
def joinTexts : List Chunk → List Chunk
  | [] => []
  | .mk l (.text t) :: r =>
    match joinTexts r with
    | .mk _ (.text t') :: r' => .mk l (.text (t ++ t')) :: r'
    | r' => .mk l (.text t) :: r'
  | c :: r => c :: joinTexts r

/-- Arguments, with the converted contents. -/
def withInner1 : List ((Str × Scope) × List Ast1.Chunk) → List (Str × Ast1.Scope)
  | [] => []
  | ((p, sc), cs) :: r => (p, .mk cs sc.variant) :: withInner1 r

/-- See above. An environment is a `\begin` command with its label as first argument, its content numbered on from
the line of the environment, and an `\end` command, as many lines below as there are newlines in what is between. The
label must be readable, and an environment that is not empty must not be on line 0. -/
inductive Unfolds : List Chunk → List Ast1.Chunk → Prop
  | nil : Unfolds [] []
  | text {l t cs ds} : Unfolds cs ds → Unfolds (.mk l (.text t) :: cs) (.mk l (.text t) :: ds)
  | scope {l inner inner' sv cs ds} : Unfolds inner inner' → Unfolds cs ds →
      Unfolds (.mk l (.scope (.mk inner sv)) :: cs) (.mk l (.scope (.mk inner' sv)) :: ds)
  | command {l label cs ds} {items : List ((Str × Scope) × List Ast1.Chunk)} :
      (∀ x ∈ items, Unfolds x.1.2.chunks x.2) → Unfolds cs ds →
      Unfolds (.mk l (.command (.mk label (items.map (·.1)))) :: cs) (.mk l (.command (.mk label (withInner1 items))) :: ds)
  | environment {l label lab content content' pb pe cs ds k} {items : List ((Str × Scope) × List Ast1.Chunk)} :
      Ast1.fromStr label = .ok lab → (∀ x ∈ items, Unfolds x.1.2.chunks x.2) → (content ≠ [] → 1 ≤ l) →
      Unfolds (content.map (Chunk.shift (l - 1))) content' → Unfolds cs ds →
      k = (pb ++ label ++ displayArgs (items.map (·.1)) ++ displayChunks content).count '\n' →
      Unfolds (.mk l (.environment (.mk label (items.map (·.1)) content pb pe)) :: cs)
        (.mk l (.command (.mk chars!"begin" ((pb, .mk lab .curly) :: withInner1 items))) ::
          (content' ++ .mk (l + k) (.command (.mk chars!"end" [(pe, .mk lab .curly)])) :: ds))

end LatexAst.Ast2

namespace LatexAst.Ast3

/-- The chunks of a scope. -/
def Scope.chunks : Scope → List Chunk
  | .mk cs _ => cs

/-- The kind of a scope. -/
def Scope.variant : Scope → ScopeVariant
  | .mk _ v => v

/-- Arguments, with the converted contents. -/
def withInner2 : List ((Str × Scope) × List Ast2.Chunk) → List (Str × Ast2.Scope)
  | [] => []
  | ((p, sc), cs) :: r => (p, .mk cs sc.variant) :: withInner2 r

/-- A dollar delimiter `δ` in front: part of the first chunk, if that is a text, else a text on line 1. -/
inductive OpensWith (δ : Str) : List Ast2.Chunk → List Ast2.Chunk → Prop
  | text {l t r} : OpensWith δ (.mk l (.text t) :: r) (.mk l (.text (δ ++ t)) :: r)
  | other {cs} : (∀ l t r, cs ≠ .mk l (.text t) :: r) → OpensWith δ cs (.mk 1 (.text δ) :: cs)

/-- A dollar delimiter `δ` at the end: part of the last chunk, if that is a text, else a text on line `n`. -/
inductive ClosesWith (δ : Str) (n : Nat) : List Ast2.Chunk → List Ast2.Chunk → Prop
  | text {l t r} : ClosesWith δ n (r ++ [.mk l (.text t)]) (r ++ [.mk l (.text (t ++ δ))])
  | other {cs} : (∀ l t r, cs ≠ r ++ [.mk l (.text t)]) → ClosesWith δ n cs (cs ++ [.mk n (.text δ)])

/-- A formula that spans `n` lines in its delimiters, numbered from line 1. -/
inductive Delimited : MathsVariant → MathsType → Nat → List Ast2.Chunk → List Ast2.Chunk → Prop
  | round {n cs} : Delimited .brackets .inline n cs
      (.mk 1 (.command (.mk chars!"(" [])) :: (cs ++ [.mk n (.command (.mk chars!")" []))]))
  | square {n cs} : Delimited .brackets .outline n cs
      (.mk 1 (.command (.mk chars!"[" [])) :: (cs ++ [.mk n (.command (.mk chars!"]" []))]))
  | emptyDollar {n} : Delimited .dollars .inline n [] [.mk 1 (.text chars!"$$")]
  | emptyDollars {n} : Delimited .dollars .outline n [] [.mk 1 (.text chars!"$$$$")]
  | dollar {n cs ds es} : cs ≠ [] → OpensWith chars!"$" cs ds → ClosesWith chars!"$" n ds es →
      Delimited .dollars .inline n cs es
  | dollars {n cs ds es} : cs ≠ [] → OpensWith chars!"$$" cs ds → ClosesWith chars!"$$" n ds es →
      Delimited .dollars .outline n cs es

/-- See above. A paragraph break is a text; a maths block is its content in its delimiters, numbered on from the line of
the block, which must not be 0. -/
inductive Unfolds : List Chunk → List Ast2.Chunk → Prop
  | nil : Unfolds [] []
  | text {l t cs ds} : Unfolds cs ds → Unfolds (.mk l (.text t) :: cs) (.mk l (.text t) :: ds)
  | break {l t cs ds} : Unfolds cs ds → Unfolds (.mk l (.paragraphBreak t) :: cs) (.mk l (.text t) :: ds)
  | scope {l inner inner' sv cs ds} : Unfolds inner inner' → Unfolds cs ds →
      Unfolds (.mk l (.scope (.mk inner sv)) :: cs) (.mk l (.scope (.mk inner' sv)) :: ds)
  | command {l label cs ds} {items : List ((Str × Scope) × List Ast2.Chunk)} :
      (∀ x ∈ items, Unfolds x.1.2.chunks x.2) → Unfolds cs ds →
      Unfolds (.mk l (.command (.mk label (items.map (·.1)))) :: cs) (.mk l (.command (.mk label (withInner2 items))) :: ds)
  | environment {l label content content' pb pe cs ds} {items : List ((Str × Scope) × List Ast2.Chunk)} :
      (∀ x ∈ items, Unfolds x.1.2.chunks x.2) → Unfolds content content' → Unfolds cs ds →
      Unfolds (.mk l (.environment (.mk label (items.map (·.1)) content pb pe)) :: cs)
        (.mk l (.environment (.mk label (withInner2 items) content' pb pe)) :: ds)
  | maths {l v t content content' block cs ds} : 1 ≤ l → Unfolds content content' →
      Delimited v t (1 + (displayChunks content).count '\n') content' block → Unfolds cs ds →
      Unfolds (.mk l (.mathsBlock (.mk v t content)) :: cs) (block.map (Ast2.Chunk.shift (l - 1)) ++ ds)

/-- What a document converts to: the preamble; the `document` environment, numbered by the newlines of the preamble
(so one line too high), its content further down by the newlines before and in its arguments; and what follows, its
texts put together, further down by one less than the newlines up to the end of the environment. There must be such a
newline. -/
inductive DocumentUnfolds (f : Document) : List Ast2.Chunk → Prop
  | mk {pre body tr k b n} {items : List ((Str × Scope) × List Ast2.Chunk)} :
      Unfolds f.preamable pre → Unfolds f.body body → f.bodyArgs = items.map (·.1) →
      (∀ x ∈ items, Unfolds x.1.2.chunks x.2) → Unfolds f.trailing tr →
      k = (displayChunks f.preamable).count '\n' →
      b = (f.bodyBeginPrec ++ displayArgs f.bodyArgs).count '\n' →
      n + 1 = ({ f with trailing := [] } : Document).written.count '\n' →
      DocumentUnfolds f (pre ++ .mk k (.environment (.mk chars!"document" (withInner2 items)
          (body.map (Ast2.Chunk.shift b)) f.bodyBeginPrec f.bodyEndPrec)) ::
        Ast2.joinTexts (tr.map (Ast2.Chunk.shift n)))

end LatexAst.Ast3
