import Verif.Model.Ast3

/-!
# Specification vocabulary: occurrences in a tree, special characters, line positions

`Within cs v`: the node `v` occurs in the chunk sequence `cs`, at any depth (inside scopes, command
arguments, environment arguments and contents, maths blocks).
-/

namespace LatexAst

namespace Spec

/-- The characters with a syntactic meaning to the stage-1 parser. -/
def Special (c : Char) : Prop := c ∈ ['\\', '%', '{', '}', '[', ']', '(', ')']

instance (c : Char) : Decidable (Special c) := by unfold Special; infer_instance

/-- A string without special characters. -/
def Sanitised (s : Str) : Prop := ∀ c ∈ s, ¬ Special c

/-- A string of whitespace only. -/
def Blank (s : Str) : Prop := ∀ c ∈ s, isWhitespace c = true

/-- Length in bytes of the UTF-8 encoding. -/
def utf8Length (s : Str) : Nat := (s.map Char.utf8Size).sum

end Spec

namespace Ast1
/-- `v` occurs somewhere in the stage-1 chunk sequence. -/
inductive Within : List Chunk → ChunkVariant → Prop
  | here {cs l v} : Chunk.mk l v ∈ cs → Within cs v
  | scope {cs l inner sv v} : Chunk.mk l (.scope (.mk inner sv)) ∈ cs → Within inner v → Within cs v
  | arg {cs l label args prec inner sv v} : Chunk.mk l (.command (.mk label args)) ∈ cs →
      (prec, Scope.mk inner sv) ∈ args → Within inner v → Within cs v
end Ast1

namespace Ast2
/-- `v` occurs somewhere in the stage-2 chunk sequence. -/
inductive Within : List Chunk → ChunkVariant → Prop
  | here {cs l v} : Chunk.mk l v ∈ cs → Within cs v
  | scope {cs l inner sv v} : Chunk.mk l (.scope (.mk inner sv)) ∈ cs → Within inner v → Within cs v
  | arg {cs l label args prec inner sv v} : Chunk.mk l (.command (.mk label args)) ∈ cs →
      (prec, Scope.mk inner sv) ∈ args → Within inner v → Within cs v
  | envArg {cs l label args content pb pe prec inner sv v} :
      Chunk.mk l (.environment (.mk label args content pb pe)) ∈ cs →
      (prec, Scope.mk inner sv) ∈ args → Within inner v → Within cs v
  | envContent {cs l label args content pb pe v} :
      Chunk.mk l (.environment (.mk label args content pb pe)) ∈ cs →
      Within content v → Within cs v
end Ast2

namespace Ast3
/-- `v` occurs somewhere in the stage-3 chunk sequence. -/
inductive Within : List Chunk → ChunkVariant → Prop
  | here {cs l v} : Chunk.mk l v ∈ cs → Within cs v
  | scope {cs l inner sv v} : Chunk.mk l (.scope (.mk inner sv)) ∈ cs → Within inner v → Within cs v
  | arg {cs l label args prec inner sv v} : Chunk.mk l (.command (.mk label args)) ∈ cs →
      (prec, Scope.mk inner sv) ∈ args → Within inner v → Within cs v
  | envArg {cs l label args content pb pe prec inner sv v} :
      Chunk.mk l (.environment (.mk label args content pb pe)) ∈ cs →
      (prec, Scope.mk inner sv) ∈ args → Within inner v → Within cs v
  | envContent {cs l label args content pb pe v} :
      Chunk.mk l (.environment (.mk label args content pb pe)) ∈ cs →
      Within content v → Within cs v
  | maths {cs l mv mt content v} : Chunk.mk l (.mathsBlock (.mk mv mt content)) ∈ cs →
      Within content v → Within cs v
end Ast3

end LatexAst
