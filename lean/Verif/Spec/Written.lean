import Verif.Spec.WellFormed
import Verif.Spec.Nesting

/-!
# Specification: stage-2 documents written out

`writtenOut e` is the stage-2 document `e` with its environments written out as `\begin` and `\end`
commands, each on the line on which it is printed. `e` is canonical if it has no `\begin` or `\end`
command of its own, the labels of its environments can be read, and what is written out is canonical as a
stage-1 document (`Spec/WellFormed.lean`).
-/

namespace LatexAst.Ast2

/-- The chunk, `k` lines later. -/
def later (k : Nat) : Ast1.Chunk → Ast1.Chunk
  | .mk l v => .mk (l + k) v

/-- The label of an environment as stage-1 chunks. -/
def readLabel (label : Str) : List Ast1.Chunk :=
  match Ast1.fromStr label with
  | .ok d => d
  | .error _ => []

mutual
/-- A chunk written out. -/
def Chunk.writtenOut : Chunk → List Ast1.Chunk
  | .mk l v => v.writtenOut l
/-- A node on line `l` written out. -/
def ChunkVariant.writtenOut (l : Nat) : ChunkVariant → List Ast1.Chunk
  | .text t => [.mk l (.text t)]
  | .command c => [.mk l (.command c.writtenOut)]
  | .scope sc => [.mk l (.scope sc.writtenOut)]
  | .environment e => e.writtenOut l
/-- A command written out. -/
def Command.writtenOut : Command → Ast1.Command
  | .mk label args => .mk label (writtenOutArgs args)
/-- A scope written out. -/
def Scope.writtenOut : Scope → Ast1.Scope
  | .mk inner sv => .mk (writtenOut inner) sv
/-- An environment whose content starts on line `l` written out: its `\begin` is on the line on which it
starts, its `\end` on the line on which its content ends. -/
def Environment.writtenOut (l : Nat) : Environment → List Ast1.Chunk
  | .mk label args content pb pe =>
    .mk (l - (pb ++ label ++ displayArgs args).count '\n')
      (.command (.mk chars!"begin" ((pb, .mk (readLabel label) .curly) :: writtenOutArgs args))) ::
    ((writtenOut content).map (later (l - 1)) ++
     [.mk (l + (displayChunks content).count '\n') (.command (.mk chars!"end" [(pe, .mk (readLabel label) .curly)]))])
/-- A sequence of chunks written out. -/
def writtenOut : List Chunk → List Ast1.Chunk
  | [] => []
  | c :: cs => c.writtenOut ++ writtenOut cs
/-- Arguments written out. -/
def writtenOutArgs : List (Str × Scope) → List (Str × Ast1.Scope)
  | [] => []
  | (p, sc) :: r => (p, sc.writtenOut) :: writtenOutArgs r
end

/-- The label, read as source text, prints as itself. -/
def ReadableLabel (label : Str) : Prop := ∃ lab, Ast1.fromStr label = .ok lab ∧ Ast1.displayChunks lab = label

/-- A canonical stage-2 document. -/
structure Canonical (e : Document) : Prop where
  /-- `\begin` and `\end` commands would be read as environments -/
  noDelimiters : ∀ label args, Within e (.command (.mk label args)) → label ≠ chars!"begin" ∧ label ≠ chars!"end"
  /-- the labels can be read -/
  labels : ∀ label args content pb pe, Within e (.environment (.mk label args content pb pe)) → ReadableLabel label
  /-- written out, it is canonical -/
  writtenOut : Ast1.Canonical (writtenOut e)

end LatexAst.Ast2
