import Verif.Spec.Load3
import Verif.Spec.Tree

/-!
# Specification: what going from stage 3 to stage 2 and back does to chunks

Going to stage 2 makes a text of every piece of text (a paragraph or a break between paragraphs), and puts every formula in its
delimiters. Coming back, in a formula in dollar signs only the last of several texts stays in the formula: the others are left behind,
in front of it. See `Spec/MathsRule.lean`.
-/

namespace LatexAst.Ast3
open Spec

/-- A piece of text, as it is cut out of a text without dollar signs. -/
inductive IsPiece : Chunk → Prop
  | text {l t} : IsParagraph t → '$' ∉ t → IsPiece (.mk l (.text t))
  | break {l s} : IsBreak s → IsPiece (.mk l (.paragraphBreak s))

/-- No pieces of text and no formulas in dollar signs, also not in formulas. -/
inductive Textless : List Chunk → Prop
  | nil : Textless []
  | command {l c rest} : Textless rest → Textless (.mk l (.command c) :: rest)
  | scope {l s rest} : Textless rest → Textless (.mk l (.scope s) :: rest)
  | environment {l e rest} : Textless rest → Textless (.mk l (.environment e) :: rest)
  | brackets {l k content rest} : Textless content → Textless rest → Textless (.mk l (.mathsBlock (.mk .brackets k content)) :: rest)

/-- No formula in brackets of kind `k`, also not in formulas. -/
inductive Without (k : MathsType) : List Chunk → Prop
  | nil : Without k []
  | other {l v rest} : (∀ m, v ≠ .mathsBlock m) → Without k rest → Without k (.mk l v :: rest)
  | maths {l v j content rest} : ¬ (v = .brackets ∧ j = k) → Without k content → Without k rest →
      Without k (.mk l (.mathsBlock (.mk v j content)) :: rest)

/-- Arguments with other contents. -/
def refilled : List ((Str × Scope) × List Chunk) → List (Str × Scope)
  | [] => []
  | ((p, sc), cs) :: r => (p, .mk cs sc.variant) :: refilled r

/-- `Resettles cs out`: the chunks `cs` are as chunks made by the conversion, and going to stage 2 and back makes `out` of them
(apart from line numbers). In a formula in dollar signs what is not text comes first; the pieces of text after it are left behind in
front of the formula, except for the last. -/
inductive Resettles : List Chunk → List Chunk → Prop
  | nil : Resettles [] []
  | piece {c rest rest'} : IsPiece c → Resettles rest rest' → Resettles (c :: rest) (c :: rest')
  | command {l label rest rest'} {items : List ((Str × Scope) × List Chunk)} : ¬ IsDelimiter label →
      (∀ x ∈ items, Resettles x.1.2.chunks x.2) → Resettles rest rest' →
      Resettles (.mk l (.command (.mk label (items.map (·.1)))) :: rest) (.mk l (.command (.mk label (refilled items))) :: rest')
  | scope {l inner inner' sv rest rest'} : Resettles inner inner' → Resettles rest rest' →
      Resettles (.mk l (.scope (.mk inner sv)) :: rest) (.mk l (.scope (.mk inner' sv)) :: rest')
  | environment {l label content content' pb pe rest rest'} {items : List ((Str × Scope) × List Chunk)} :
      (∀ x ∈ items, Resettles x.1.2.chunks x.2) → Resettles content content' → Resettles rest rest' →
      Resettles (.mk l (.environment (.mk label (items.map (·.1)) content pb pe)) :: rest)
        (.mk l (.environment (.mk label (refilled items) content' pb pe)) :: rest')
  | brackets {l k content content' rest rest'} : Without k content → Resettles content content' → Resettles rest rest' →
      Resettles (.mk l (.mathsBlock (.mk .brackets k content)) :: rest) (.mk l (.mathsBlock (.mk .brackets k content')) :: rest')
  /-- nothing, or no text, in dollar signs -/
  | plain {l k ms ms' rest rest'} : (k = .inline → ms ≠ []) → Textless ms → Resettles ms ms' → Resettles rest rest' →
      Resettles (.mk l (.mathsBlock (.mk .dollars k ms)) :: rest) (.mk l (.mathsBlock (.mk .dollars k ms')) :: rest')
  /-- text at the end, in dollar signs: `left` is left behind -/
  | dollars {l k ms ms' left last rest rest'} : Textless ms → Resettles ms ms' → (∀ c ∈ left, IsPiece c) → IsPiece last →
      Resettles rest rest' →
      Resettles (.mk l (.mathsBlock (.mk .dollars k (ms ++ left ++ [last]))) :: rest)
        (left ++ .mk l (.mathsBlock (.mk .dollars k (ms' ++ [last]))) :: rest')

/-- The chunk is a text or a break between paragraphs. -/
def Chunk.IsText (c : Chunk) : Prop := (∃ t, c.variant = .text t) ∨ ∃ t, c.variant = .paragraphBreak t

/-- No piece of text comes before the last chunk. -/
def TextOnlyLast (content : List Chunk) : Prop := ∀ a c b, content = a ++ c :: b → c.IsText → b = []

/-- `Q` holds of the content of every formula in dollar signs, at any depth. -/
def EveryDollars (Q : List Chunk → Prop) (cs : List Chunk) : Prop :=
  ∀ k content, Within cs (.mathsBlock (.mk .dollars k content)) → Q content

/-- In every formula in dollar signs, at any depth, no piece of text comes before the last chunk: so none has a break between
paragraphs together with other text. -/
def OnePiece (cs : List Chunk) : Prop := EveryDollars TextOnlyLast cs

/-! ### when it panics -/

/-- The line, in a formula in dollar signs with this content, to which its closing goes: that of the text at its end; without one, it is
counted from line 1. -/
def closeLine (content : List Chunk) : Nat :=
  match content.getLast? with
  | some (.mk l (.text _)) => l
  | some (.mk l (.paragraphBreak _)) => l
  | _ => 1 + (displayChunks content).count '\n'

/-- Something in the formula that is not text is, at stage 2, numbered more than one line above the closing. -/
def Strays (content : List Chunk) : Prop :=
  ∃ xs x, Unfolds content xs ∧ x ∈ xs ∧ NotText x ∧ x.lineNo + 1 < closeLine content

/-- Text at the end of a formula in dollar signs is not numbered 0. -/
def ClosedBelow (cs : List Chunk) : Prop := EveryDollars (fun content => ∀ a c, content = a ++ [c] → c.IsText → 1 ≤ c.lineNo) cs

end LatexAst.Ast3
