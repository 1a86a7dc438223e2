import Verif.Spec.Source

/-!
# Specification: `\begin` / `\end` in a stage-1 document

`Opened pre st`: having read the chunks `pre` (one level of the document), the environments with the
labels `st` are open, innermost first, and everything read so far was in order.
-/

namespace LatexAst.Ast1

/-- A `\begin` or `\end` command. -/
def Chunk.IsDelimiter (c : Chunk) : Prop :=
  ∃ label args, c.variant = .command (.mk label args) ∧ (label = chars!"begin" ∨ label = chars!"end")

/-- `\begin{lab}`, possibly with further arguments. -/
def Chunk.Begins (c : Chunk) (lab : List Chunk) : Prop :=
  ∃ prec args, c.variant = .command (.mk chars!"begin" ((prec, .mk lab .curly) :: args))

/-- `\end{lab}`, without further arguments. -/
def Chunk.Ends (c : Chunk) (lab : List Chunk) : Prop :=
  ∃ prec, c.variant = .command (.mk chars!"end" [(prec, .mk lab .curly)])

/-- The labels of the environments left open by a sequence of chunks, innermost first. -/
inductive Opened : List Chunk → List (List Chunk) → Prop
  | nil : Opened [] []
  | other {pre st c} : Opened pre st → ¬ c.IsDelimiter → Opened (pre ++ [c]) st
  | opens {pre st c lab} : Opened pre st → c.Begins lab → Opened (pre ++ [c]) (lab :: st)
  | closes {pre st c lab} : Opened pre (lab :: st) → c.Ends lab → Opened (pre ++ [c]) st

/-- The same as a grammar: the sequences whose `\begin`s and `\end`s match. -/
inductive Matched : List Chunk → Prop
  | nil : Matched []
  | other {c rest} : ¬ c.IsDelimiter → Matched rest → Matched (c :: rest)
  | env {b body e rest lab} : b.Begins lab → Matched body → e.Ends lab → Matched rest →
      Matched (b :: (body ++ e :: rest))

/-- The chunk sequences of `d` in which environments are looked for: `d` itself and the contents of
scopes and arguments, at any depth; the label arguments of `\begin` and `\end` are not looked into. -/
inductive Checked (d : List Chunk) : List Chunk → Prop
  | top : Checked d d
  | scope {cs l inner sv} : Checked d cs → Chunk.mk l (.scope (.mk inner sv)) ∈ cs → Checked d inner
  | arg {cs l label args prec inner sv} : Checked d cs →
      Chunk.mk l (.command (.mk label args)) ∈ cs → label ≠ chars!"begin" → label ≠ chars!"end" →
      (prec, Scope.mk inner sv) ∈ args → Checked d inner
  | beginArg {cs l first args prec inner sv} : Checked d cs →
      Chunk.mk l (.command (.mk chars!"begin" (first :: args))) ∈ cs →
      (prec, Scope.mk inner sv) ∈ args → Checked d inner

/-- What is wrong with the environments of one sequence, and the error type that says so. -/
inductive Misnested (cs : List Chunk) : ErrorType → Prop
  /-- the environment `lab` is still open at the end of the sequence (and is the outermost such) -/
  | unclosed {st lab} : Opened cs st → st.getLast? = some lab →
      Misnested cs (.unclosedEnvironment (displayChunks lab))
  /-- an `\end{lab}` where the innermost open environment (if any) has another label -/
  | unexpectedEnd {pre c post st p lab r} : cs = pre ++ c :: post → Opened pre st →
      c.variant = .command (.mk chars!"end" ((p, .mk lab .curly) :: r)) → st.head? ≠ some lab →
      Misnested cs (.unexpectedEnd (displayChunks lab))
  /-- an `\end{lab}` with more than one argument, that closes the innermost open environment -/
  | tooManyArgs {pre c post st p lab x r} : cs = pre ++ c :: post → Opened pre (lab :: st) →
      c.variant = .command (.mk chars!"end" ((p, .mk lab .curly) :: x :: r)) →
      Misnested cs .tooManyArgsEnd
  /-- a `\begin` or `\end` without a first argument in curly braces -/
  | noLabel {pre c post st label args} : cs = pre ++ c :: post → Opened pre st →
      c.variant = .command (.mk label args) → label = chars!"begin" ∨ label = chars!"end" →
      (∀ p lab r, args ≠ (p, .mk lab .curly) :: r) → Misnested cs .noEnvironmentLabel

/-- In every checked sequence, what follows a `\begin` command is not numbered with a line before the
end of that command. -/
def NumberedInOrder (d : List Chunk) : Prop :=
  ∀ lv, Checked d lv → ∀ pre l args mid c post,
    lv = pre ++ .mk l (.command (.mk chars!"begin" args)) :: (mid ++ c :: post) →
      l + (displayArgs args).count '\n' ≤ c.lineNo

end LatexAst.Ast1

namespace LatexAst.Ast2

/-- `cs` is one of the chunk sequences of `d`: the document itself, or the content of a scope, an
argument or an environment, at any depth. -/
inductive Level (d : List Chunk) : List Chunk → Prop
  | top : Level d d
  | scope {cs l inner sv} : Level d cs → Chunk.mk l (.scope (.mk inner sv)) ∈ cs → Level d inner
  | arg {cs l label args prec inner sv} : Level d cs →
      Chunk.mk l (.command (.mk label args)) ∈ cs → (prec, Scope.mk inner sv) ∈ args → Level d inner
  | envArg {cs l label args content pb pe prec inner sv} : Level d cs →
      Chunk.mk l (.environment (.mk label args content pb pe)) ∈ cs → (prec, Scope.mk inner sv) ∈ args →
      Level d inner
  | envContent {cs l label args content pb pe} : Level d cs →
      Chunk.mk l (.environment (.mk label args content pb pe)) ∈ cs → Level d content

end LatexAst.Ast2

namespace LatexAst.Ast1

/-- No `\begin` or `\end` command anywhere in the document. -/
def NoDelimiters (d : List Chunk) : Prop :=
  ∀ label args, Within d (.command (.mk label args)) → label ≠ chars!"begin" ∧ label ≠ chars!"end"

mutual
/-- The stage-2 document with the same structure. -/
def Chunk.asAst2 : Chunk → Ast2.Chunk
  | .mk l v => .mk l v.asAst2
/-- The stage-2 node with the same structure. -/
def ChunkVariant.asAst2 : ChunkVariant → Ast2.ChunkVariant
  | .text t => .text t
  | .scope sc => .scope sc.asAst2
  | .command c => .command c.asAst2
/-- The stage-2 command with the same structure. -/
def Command.asAst2 : Command → Ast2.Command
  | .mk label args => .mk label (argsAsAst2 args)
/-- The stage-2 scope with the same structure. -/
def Scope.asAst2 : Scope → Ast2.Scope
  | .mk inner sv => .mk (chunksAsAst2 inner) sv
/-- The stage-2 chunks with the same structure. -/
def chunksAsAst2 : List Chunk → List Ast2.Chunk
  | [] => []
  | c :: cs => c.asAst2 :: chunksAsAst2 cs
/-- The stage-2 arguments with the same structure. -/
def argsAsAst2 : List (Str × Scope) → List (Str × Ast2.Scope)
  | [] => []
  | (p, sc) :: r => (p, sc.asAst2) :: argsAsAst2 r
end

end LatexAst.Ast1
