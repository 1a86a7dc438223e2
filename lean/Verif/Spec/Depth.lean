import Verif.Spec.Nesting
import Verif.Spec.Document

/-!
# Specification: how deep a document is nested

`LevelAt d k lv`: the sequence of chunks `lv` occurs in `d` inside exactly `k` scopes, arguments, environments and
maths blocks.
-/

namespace LatexAst.Spec

/-- Number of opening brackets in a text. -/
def openings (s : Str) : Nat := s.countP (fun c => c == '{' || c == '[' || c == '(')

/-- Number of opening brackets and dollars in a text. -/
def mathsOpenings (s : Str) : Nat := s.countP (fun c => c == '{' || c == '[' || c == '(' || c == '$')

end LatexAst.Spec

namespace LatexAst.Ast1

inductive LevelAt (d : List Chunk) : Nat → List Chunk → Prop
  | top : LevelAt d 0 d
  | scope {k cs l inner sv} : LevelAt d k cs → Chunk.mk l (.scope (.mk inner sv)) ∈ cs → LevelAt d (k + 1) inner
  | arg {k cs l label args prec inner sv} : LevelAt d k cs →
      Chunk.mk l (.command (.mk label args)) ∈ cs → (prec, Scope.mk inner sv) ∈ args → LevelAt d (k + 1) inner

/-- Nothing is nested inside more than `n` scopes or arguments. -/
def NestedAtMost (n : Nat) (d : List Chunk) : Prop := ∀ k lv, LevelAt d k lv → k ≤ n

end LatexAst.Ast1

namespace LatexAst.Ast2

inductive LevelAt (d : List Chunk) : Nat → List Chunk → Prop
  | top : LevelAt d 0 d
  | scope {k cs l inner sv} : LevelAt d k cs → Chunk.mk l (.scope (.mk inner sv)) ∈ cs → LevelAt d (k + 1) inner
  | arg {k cs l label args prec inner sv} : LevelAt d k cs →
      Chunk.mk l (.command (.mk label args)) ∈ cs → (prec, Scope.mk inner sv) ∈ args → LevelAt d (k + 1) inner
  | envArg {k cs l label args content pb pe prec inner sv} : LevelAt d k cs →
      Chunk.mk l (.environment (.mk label args content pb pe)) ∈ cs → (prec, Scope.mk inner sv) ∈ args →
      LevelAt d (k + 1) inner
  | envContent {k cs l label args content pb pe} : LevelAt d k cs →
      Chunk.mk l (.environment (.mk label args content pb pe)) ∈ cs → LevelAt d (k + 1) content

/-- Nothing is nested inside more than `n` scopes, arguments or environments. -/
def NestedAtMost (n : Nat) (d : List Chunk) : Prop := ∀ k lv, LevelAt d k lv → k ≤ n

end LatexAst.Ast2

namespace LatexAst.Ast3

inductive LevelAt (d : List Chunk) : Nat → List Chunk → Prop
  | top : LevelAt d 0 d
  | scope {k cs l inner sv} : LevelAt d k cs → Chunk.mk l (.scope (.mk inner sv)) ∈ cs → LevelAt d (k + 1) inner
  | arg {k cs l label args prec inner sv} : LevelAt d k cs →
      Chunk.mk l (.command (.mk label args)) ∈ cs → (prec, Scope.mk inner sv) ∈ args → LevelAt d (k + 1) inner
  | envArg {k cs l label args content pb pe prec inner sv} : LevelAt d k cs →
      Chunk.mk l (.environment (.mk label args content pb pe)) ∈ cs → (prec, Scope.mk inner sv) ∈ args →
      LevelAt d (k + 1) inner
  | envContent {k cs l label args content pb pe} : LevelAt d k cs →
      Chunk.mk l (.environment (.mk label args content pb pe)) ∈ cs → LevelAt d (k + 1) content
  | maths {k cs l v t content} : LevelAt d k cs → Chunk.mk l (.mathsBlock (.mk v t content)) ∈ cs →
      LevelAt d (k + 1) content

/-- Nothing is nested inside more than `n` scopes, arguments, environments or maths blocks. -/
def NestedAtMost (n : Nat) (d : List Chunk) : Prop := ∀ k lv, LevelAt d k lv → k ≤ n

end LatexAst.Ast3

namespace LatexAst.Ast1

/-- All line numbers, at every level, are less than `B`. -/
def LinesBelow (B : Nat) (d : List Chunk) : Prop := ∀ k lv, LevelAt d k lv → ∀ l v, Chunk.mk l v ∈ lv → l < B

end LatexAst.Ast1

namespace LatexAst.Ast2

/-- All line numbers, at every level, are less than `B`. -/
def LinesBelow (B : Nat) (d : List Chunk) : Prop := ∀ k lv, LevelAt d k lv → ∀ l v, Chunk.mk l v ∈ lv → l < B

end LatexAst.Ast2

namespace LatexAst.Ast3

/-- All line numbers, at every level, are less than `B`. -/
def LinesBelow (B : Nat) (d : List Chunk) : Prop := ∀ k lv, LevelAt d k lv → ∀ l v, Chunk.mk l v ∈ lv → l < B

end LatexAst.Ast3
