import Verif.Spec.Valid

/-!
# Specification: the first fault of a document

`nodeList d` lists the nodes of `d` in the order in which they are printed, a node before what is inside it. The fault of a
node itself is `OwnFault`; the first fault is that of the first node that has one.
-/

namespace LatexAst

/-- `c` is the first special character of `s`. -/
def Spec.FirstSpecial (s : Str) (c : Char) : Prop :=
  ∃ a b, s = a ++ c :: b ∧ Spec.Sanitised a ∧ Spec.Special c

namespace Ast1
mutual
/-- The nodes in and below a chunk, in reading order. -/
def Chunk.nodeList : Chunk → List ChunkVariant
  | .mk _ (.text s) => [.text s]
  | .mk _ (.command c) => .command c :: c.nodeList
  | .mk _ (.scope s) => .scope s :: s.nodeList
def Command.nodeList : Command → List ChunkVariant
  | .mk _ args => nodeListArgs args
def Scope.nodeList : Scope → List ChunkVariant
  | .mk cs _ => nodeList cs
def nodeList : List Chunk → List ChunkVariant
  | [] => []
  | c :: cs => c.nodeList ++ nodeList cs
def nodeListArgs : List (Str × Scope) → List ChunkVariant
  | [] => []
  | (_, s) :: r => s.nodeList ++ nodeListArgs r
end

/-- What is wrong with a node itself, not with what is inside it. -/
inductive OwnFault : ChunkVariant → InternalError → Prop
  | text {s c} : Spec.FirstSpecial s c → OwnFault (.text s) (.unsanitisedCharInString c)
  | label {label args c} : Spec.utf8Length label ≠ 1 → Spec.FirstSpecial label c →
      OwnFault (.command (.mk label args)) (.unsanitisedCharInString c)

/-- `e` is the fault of the first faulty node. -/
def FirstFault (d : List Chunk) (e : InternalError) : Prop :=
  ∃ a v b, nodeList d = a ++ v :: b ∧ (∀ w ∈ a, NodeOk w) ∧ OwnFault v e
end Ast1

namespace Ast2
mutual
/-- The nodes in and below a chunk, in reading order. -/
def Chunk.nodeList : Chunk → List ChunkVariant
  | .mk _ (.text s) => [.text s]
  | .mk _ (.command c) => .command c :: c.nodeList
  | .mk _ (.scope s) => .scope s :: s.nodeList
  | .mk _ (.environment e) => .environment e :: e.nodeList
def Command.nodeList : Command → List ChunkVariant
  | .mk _ args => nodeListArgs args
def Scope.nodeList : Scope → List ChunkVariant
  | .mk cs _ => nodeList cs
def Environment.nodeList : Environment → List ChunkVariant
  | .mk _ args content _ _ => nodeListArgs args ++ nodeList content
def nodeList : List Chunk → List ChunkVariant
  | [] => []
  | c :: cs => c.nodeList ++ nodeList cs
def nodeListArgs : List (Str × Scope) → List ChunkVariant
  | [] => []
  | (_, s) :: r => s.nodeList ++ nodeListArgs r
end

/-- What is wrong with a node itself, not with what is inside it. -/
inductive OwnFault : ChunkVariant → InternalError → Prop
  | text {s c} : Spec.FirstSpecial s c → OwnFault (.text s) (.unsanitisedCharInString c)
  | begin_ {args} : OwnFault (.command (.mk chars!"begin" args)) .beginCommand
  | end_ {args} : OwnFault (.command (.mk chars!"end" args)) .endCommand
  | label {label args c} : Spec.utf8Length label ≠ 1 → Spec.FirstSpecial label c →
      OwnFault (.command (.mk label args)) (.unsanitisedCharInString c)
  | environment {label args content pb pe c} : Spec.FirstSpecial label c →
      OwnFault (.environment (.mk label args content pb pe)) (.unsanitisedCharInString c)

/-- `e` is the fault of the first faulty node. -/
def FirstFault (d : List Chunk) (e : InternalError) : Prop :=
  ∃ a v b, nodeList d = a ++ v :: b ∧ (∀ w ∈ a, NodeOk w) ∧ OwnFault v e
end Ast2

namespace Ast3
mutual
/-- The nodes in and below a chunk, in reading order. -/
def Chunk.nodeList : Chunk → List ChunkVariant
  | .mk _ (.text s) => [.text s]
  | .mk _ (.paragraphBreak s) => [.paragraphBreak s]
  | .mk _ (.command c) => .command c :: c.nodeList
  | .mk _ (.scope s) => .scope s :: s.nodeList
  | .mk _ (.environment e) => .environment e :: e.nodeList
  | .mk _ (.mathsBlock m) => .mathsBlock m :: m.nodeList
def Command.nodeList : Command → List ChunkVariant
  | .mk _ args => nodeListArgs args
def Scope.nodeList : Scope → List ChunkVariant
  | .mk cs _ => nodeList cs
def Environment.nodeList : Environment → List ChunkVariant
  | .mk _ args content _ _ => nodeListArgs args ++ nodeList content
def MathsBlock.nodeList : MathsBlock → List ChunkVariant
  | .mk _ _ content => nodeList content
def nodeList : List Chunk → List ChunkVariant
  | [] => []
  | c :: cs => c.nodeList ++ nodeList cs
def nodeListArgs : List (Str × Scope) → List ChunkVariant
  | [] => []
  | (_, s) :: r => s.nodeList ++ nodeListArgs r
end

/-- What is wrong with a node itself, not with what is inside it. A text is read up to its first special character, or the
newline that ends its first paragraph gap, whichever comes first. -/
inductive OwnFault : ChunkVariant → InternalError → Prop
  | special {a c b} : Spec.Sanitised a → ¬ Spec.ParagraphGap a → Spec.Special c →
      OwnFault (.text (a ++ c :: b)) (.unsanitisedCharInString c)
  | gap {a b} : Spec.Sanitised a → ¬ Spec.ParagraphGap a → Spec.ParagraphGap (a ++ ['\n']) →
      OwnFault (.text (a ++ '\n' :: b)) .unbrokenParagraph
  | notBlank {s} : ¬ Spec.Blank s → OwnFault (.paragraphBreak s) .paragraphBreakNonwhitespace
  | tooShort {s} : Spec.Blank s → s.count '\n' < 2 → OwnFault (.paragraphBreak s) .paragraphBreakTooShort
  | begin_ {args} : OwnFault (.command (.mk chars!"begin" args)) .beginCommand
  | end_ {args} : OwnFault (.command (.mk chars!"end" args)) .endCommand
  | label {label args c} : Spec.utf8Length label ≠ 1 → Spec.FirstSpecial label c →
      OwnFault (.command (.mk label args)) (.unsanitisedCharInString c)
  | environment {label args content pb pe c} : Spec.FirstSpecial label c →
      OwnFault (.environment (.mk label args content pb pe)) (.unsanitisedCharInString c)

/-- `e` is the fault of the first faulty node. -/
def FirstFault (d : List Chunk) (e : InternalError) : Prop :=
  ∃ a v b, nodeList d = a ++ v :: b ∧ (∀ w ∈ a, NodeOk w) ∧ OwnFault v e

/-- The first fault of a section: of its first chunk that has a wrong line number or a fault in it. -/
def FirstSectionFault (d : List Chunk) (e : InternalError) : Prop :=
  ∃ pre c post, d = pre ++ c :: post ∧ ValidSection pre ∧
    ((c.lineNo ≠ 1 + (displayChunks pre).count '\n' ∧
        e = .incorrectChunkLineNumber (1 + (displayChunks pre).count '\n') c.lineNo) ∨
     (c.lineNo = 1 + (displayChunks pre).count '\n' ∧ FirstFault [c] e))
end Ast3

end LatexAst
