import Verif.Spec.Maths

/-!
# Specification: the words of a level, and texts that move forward
-/

namespace LatexAst.Spec

/-- What a level is made of: characters, scopes, commands and environments. -/
inductive Word where
  | char (c : Char)
  | scope (variant : ScopeVariant) (inner : List Word)
  | command (label : Str) (args : List (Str × ScopeVariant × List Word))
  | environment (label : Str) (args : List (Str × ScopeVariant × List Word)) (inner : List Word) (precBegin precEnd : Str)

/-- The characters of a text, without dollar signs. -/
def charWords (s : Str) : List Word := (s.filter fun c => c ≠ '$').map Word.char

/-- Not a character. -/
def Word.Bulky (w : Word) : Prop := ∀ c, w ≠ .char c

/-- `Forward a b`: `b` is `a`, except that characters may have moved to before scopes, commands and environments they
came after, at any depth. -/
inductive Forward : List Word → List Word → Prop
  | refl (a) : Forward a a
  | trans {a b c} : Forward a b → Forward b c → Forward a c
  | append {a b c d} : Forward a b → Forward c d → Forward (a ++ c) (b ++ d)
  | move {w} (c) : w.Bulky → Forward [w, .char c] [.char c, w]
  | scope {a b} (v) : Forward a b → Forward [.scope v a] [.scope v b]
  | command {a b} (label as p v bs) : Forward a b →
      Forward [.command label (as ++ (p, v, a) :: bs)] [.command label (as ++ (p, v, b) :: bs)]
  | argument {a b} (label as p v bs i pb pe) : Forward a b →
      Forward [.environment label (as ++ (p, v, a) :: bs) i pb pe] [.environment label (as ++ (p, v, b) :: bs) i pb pe]
  | environment {a b} (label as pb pe) : Forward a b → Forward [.environment label as a pb pe] [.environment label as b pb pe]

/-- The text before the scope, command or environment with this number, counted from 0 (all the text if there are not that
many). -/
def textBefore : Nat → List Word → Str
  | _, [] => []
  | k, .char c :: r => c :: textBefore k r
  | 0, _ :: _ => []
  | k + 1, _ :: r => textBefore k r

end LatexAst.Spec

namespace LatexAst.Ast2
open Spec

mutual
/-- The words of a chunk. `\(`, `\)`, `\[` and `\]` do not count. -/
def ChunkVariant.words : ChunkVariant → List Word
  | .text t => charWords t
  | .scope s => s.words
  | .command c => c.words
  | .environment e => e.words
def Scope.words : Scope → List Word
  | .mk cs v => [.scope v (words cs)]
def Command.words : Command → List Word
  | .mk label args => if label ∈ [chars!"(", chars!")", chars!"[", chars!"]"] then [] else [.command label (argWords args)]
def Environment.words : Environment → List Word
  | .mk label args content pb pe => [.environment label (argWords args) (words content) pb pe]
def Scope.argWord (prec : Str) : Scope → Str × ScopeVariant × List Word
  | .mk cs v => (prec, v, words cs)
def argWords : List (Str × Scope) → List (Str × ScopeVariant × List Word)
  | [] => []
  | (p, s) :: r => s.argWord p :: argWords r
/-- The words of a level, in order. -/
def words : List Chunk → List Word
  | [] => []
  | .mk _ v :: cs => v.words ++ words cs
end

end LatexAst.Ast2

namespace LatexAst.Ast3
open Spec

mutual
/-- The words of a chunk; of a formula, those in it. The commands `\(`, `\)`, `\[` and `\]` (which do not
come up when a source is read) do not count. -/
def ChunkVariant.words : ChunkVariant → List Word
  | .text t => charWords t
  | .paragraphBreak b => charWords b
  | .scope s => s.words
  | .command c => c.words
  | .environment e => e.words
  | .mathsBlock m => m.words
def MathsBlock.words : MathsBlock → List Word
  | .mk _ _ content => Ast3.words content
def Scope.words : Scope → List Word
  | .mk cs v => [.scope v (words cs)]
def Command.words : Command → List Word
  | .mk label args => if label ∈ [chars!"(", chars!")", chars!"[", chars!"]"] then [] else [.command label (argWords args)]
def Environment.words : Environment → List Word
  | .mk label args content pb pe => [.environment label (argWords args) (words content) pb pe]
def Scope.argWord (prec : Str) : Scope → Str × ScopeVariant × List Word
  | .mk cs v => (prec, v, words cs)
def argWords : List (Str × Scope) → List (Str × ScopeVariant × List Word)
  | [] => []
  | (p, s) :: r => s.argWord p :: argWords r
/-- The words of a level, in order. -/
def words : List Chunk → List Word
  | [] => []
  | .mk _ v :: cs => v.words ++ words cs
end

/-- The words of a document, section by section. -/
def Document.words (f : Document) : List Word :=
  Ast3.words f.preamable ++
    .environment chars!"document" (argWords f.bodyArgs) (Ast3.words f.body) f.bodyBeginPrec f.bodyEndPrec :: Ast3.words f.trailing

end LatexAst.Ast3
