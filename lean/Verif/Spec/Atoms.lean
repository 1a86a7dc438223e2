import Verif.Spec.KeepsText
import Verif.Spec.Document
import Verif.Spec.DocumentRule

/-!
# Specification: documents that are the same, apart from line numbers and from how their texts are cut up
-/

namespace LatexAst.Ast2

mutual
/-- What a stage-2 document is made of: single characters of its texts, and nodes. There are no line numbers. -/
inductive Atom where
  | char (c : Char)
  | scope (variant : ScopeVariant) (inner : List Atom)
  | command (label : Str) (args : List AtomArg)
  | environment (label : Str) (args : List AtomArg) (content : List Atom) (precBegin precEnd : Str)
/-- An argument, with what precedes it. -/
inductive AtomArg where
  | mk (prec : Str) (variant : ScopeVariant) (inner : List Atom)
end

mutual
/-- What a node is made of: a text, of its characters. -/
def ChunkVariant.atoms : ChunkVariant → List Atom
  | .text t => t.map .char
  | .scope s => [.scope s.variant s.atoms]
  | .command c => [c.atom]
  | .environment e => [e.atom]
/-- A command. -/
def Command.atom : Command → Atom
  | .mk label args => .command label (argAtoms args)
/-- What is in a scope. -/
def Scope.atoms : Scope → List Atom
  | .mk inner _ => atoms inner
/-- An environment. -/
def Environment.atom : Environment → Atom
  | .mk label args content pb pe => .environment label (argAtoms args) (atoms content) pb pe
/-- Arguments. -/
def argAtoms : List (Str × Scope) → List AtomArg
  | [] => []
  | (p, s) :: r => .mk p s.variant s.atoms :: argAtoms r
/-- What a sequence of chunks, or a document, is made of. -/
def atoms : List Chunk → List Atom
  | [] => []
  | .mk _ v :: cs => v.atoms ++ atoms cs
end

/-- The documents are the same, apart from line numbers and from how their texts are cut up into chunks. -/
def Alike (a b : List Chunk) : Prop := atoms a = atoms b

end LatexAst.Ast2

namespace LatexAst.Ast3

/-- The stage-2 document has exactly one document environment, and the maths of each of its parts is kept. -/
def PartsKept (e : Ast2.Document) : Prop :=
  ∃ pre post l args content pb pe, e = pre ++ .mk l (.environment (.mk chars!"document" args content pb pe)) :: post ∧
    (∀ c ∈ pre, isBody c = false) ∧ (∀ c ∈ post, isBody c = false) ∧
    KeepsText pre ∧ (∀ x ∈ args, KeepsText x.2.chunks) ∧ KeepsText content ∧ KeepsText post

end LatexAst.Ast3
