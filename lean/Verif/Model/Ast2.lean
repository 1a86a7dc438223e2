import Verif.Model.Parser1

/-!
# Stage 2 data types: display, line counts, validation, pushing

Models src/ast2/{chunk,chunkvariant,command,scope,environment,document}.rs, except the conversion
from stage 1 (`Verif.Model.Conv2`) and the conversions back (`Verif.Model.Back`).
`ast2::ScopeVariant` (src/ast2/scopevariant.rs) has the same three constructors and the same
`open`/`close` as `ast1::ScopeVariant`, and the `From` impls between them are the identity on
constructors; the model uses one type.
-/

namespace LatexAst.Ast2

open LatexAst.Ast1 (checkSanitised isSpecial)

mutual
/-- src/ast2/chunk.rs:19-22. -/
inductive Chunk where
  | mk (lineNo : Nat) (variant : ChunkVariant)
/-- src/ast2/chunkvariant.rs:14-23. -/
inductive ChunkVariant where
  | text (s : Str)
  | command (c : Command)
  | scope (sc : Scope)
  | environment (e : Environment)
/-- src/ast2/command.rs:16-23. -/
inductive Command where
  | mk (label : Str) (arguments : List (Str × Scope))
/-- src/ast2/scope.rs:19-22. -/
inductive Scope where
  | mk (chunks : List Chunk) (variant : ScopeVariant)
/-- src/ast2/environment.rs:16-23. -/
inductive Environment where
  | mk (label : Str) (arguments : List (Str × Scope)) (content : List Chunk)
       (precBegin precEnd : Str)
end

/-- src/ast2/document.rs:17: `Document(Vec<Chunk>)`. -/
abbrev Document := List Chunk

/-- src/ast2/chunk.rs:129-131. -/
def Chunk.lineNo : Chunk → Nat
  | .mk l _ => l
/-- src/ast2/chunk.rs:139-141. -/
def Chunk.variant : Chunk → ChunkVariant
  | .mk _ v => v
/-- `*chunk.line_no_mut() += k`, src/ast2/chunk.rs:134-136. -/
def Chunk.shift (k : Nat) : Chunk → Chunk
  | .mk l v => .mk (l + k) v
/-- src/ast2/command.rs:54-56. -/
def Command.label : Command → Str
  | .mk l _ => l
/-- src/ast2/command.rs:59-61. -/
def Command.arguments : Command → List (Str × Scope)
  | .mk _ a => a
/-- src/ast2/scope.rs:85-87. -/
def Scope.chunks : Scope → List Chunk
  | .mk c _ => c
/-- src/ast2/scope.rs:95-97. -/
def Scope.variant : Scope → ScopeVariant
  | .mk _ v => v
/-- src/ast2/environment.rs:144-146. -/
def Environment.label : Environment → Str
  | .mk l _ _ _ _ => l

/-! ## Display -/

mutual
/-- src/ast2/chunk.rs:24-28. -/
def Chunk.display : Chunk → Str
  | .mk _ v => v.display
/-- src/ast2/chunkvariant.rs:25-34. -/
def ChunkVariant.display : ChunkVariant → Str
  | .text s => s
  | .command c => c.display
  | .scope sc => sc.display
  | .environment e => e.display
/-- src/ast2/command.rs:25-38. -/
def Command.display : Command → Str
  | .mk label args => '\\' :: (label ++ displayArgs args)
/-- src/ast2/scope.rs:24-36. -/
def Scope.display : Scope → Str
  | .mk chunks v => v.opening :: (displayChunks chunks ++ [v.closing])
/-- src/ast2/environment.rs:25-52: `\begin{prec_begin}{label}args content\end{prec_end}{label}`. -/
def Environment.display : Environment → Str
  | .mk label args content precBegin precEnd =>
    chars!"\\begin" ++ (precBegin ++ ('{' :: (label ++ ('}' :: (displayArgs args ++
      (displayChunks content ++ (chars!"\\end" ++ (precEnd ++ ('{' :: (label ++ ['}']))))))))))
/-- src/ast2/document.rs:103-107 and the `collect::<String>()` in scope.rs / environment.rs. -/
def displayChunks : List Chunk → Str
  | [] => []
  | c :: cs => c.display ++ displayChunks cs
/-- the folds in src/ast2/command.rs:30-35 and src/ast2/environment.rs:38-43. -/
def displayArgs : List (Str × Scope) → Str
  | [] => []
  | (prec, sc) :: r => prec ++ (sc.display ++ displayArgs r)
end

/-! ## Lines -/

mutual
/-- src/ast2/chunk.rs:109-113. -/
def Chunk.lines : Chunk → Nat
  | .mk _ v => v.lines
/-- src/ast2/chunkvariant.rs:58-67. -/
def ChunkVariant.lines : ChunkVariant → Nat
  | .text s => newlines s + 1
  | .command c => c.lines
  | .scope sc => sc.lines
  | .environment e => e.lines
/-- src/ast2/command.rs:122-133. -/
def Command.lines : Command → Nat
  | .mk label args => newlines label + linesArgs args + 1
/-- src/ast2/scope.rs:61-69. -/
def Scope.lines : Scope → Nat
  | .mk chunks _ => linesSum chunks + 1
/-- src/ast2/environment.rs:119-140. -/
def Environment.lines : Environment → Nat
  | .mk label args content precBegin precEnd =>
    newlines label * 2 + newlines (precBegin ++ precEnd) + linesArgs args + linesSum content + 1
/-- `.map(|chunk| chunk.lines() - 1).sum()`. -/
def linesSum : List Chunk → Nat
  | [] => 0
  | c :: cs => (c.lines - 1) + linesSum cs
/-- the loops src/ast2/command.rs:126-129 and src/ast2/environment.rs:129-132. -/
def linesArgs : List (Str × Scope) → Nat
  | [] => 0
  | (prec, sc) :: r => newlines prec + (sc.lines - 1) + linesArgs r
end

/-- src/ast2/document.rs:130-138. -/
def Document.lines (d : Document) : Nat := linesSum d + 1

/-! ## Validate -/

/-- `match self.label.as_str() { "begin" => Err(BeginCommand), "end" => Err(EndCommand), _ => {} }`
then the character check unless the label is one byte long; src/ast2/command.rs:97-112
(and src/ast3/command.rs:82-97). -/
def checkLabel (label : Str) : Except InternalError Unit :=
  if label = chars!"begin" then .error .beginCommand
  else if label = chars!"end" then .error .endCommand
  else if byteLen label ≠ 1 then checkSanitised label
  else .ok ()

mutual
/-- src/ast2/chunk.rs:103-107. -/
def Chunk.validate : Chunk → Except InternalError Unit
  | .mk _ v => v.validate
/-- src/ast2/chunkvariant.rs:36-56. -/
def ChunkVariant.validate : ChunkVariant → Except InternalError Unit
  | .text s => checkSanitised s
  | .command c => c.validate
  | .scope sc => sc.validate
  | .environment e => e.validate
/-- src/ast2/command.rs:95-120. -/
def Command.validate : Command → Except InternalError Unit
  | .mk label args =>
    match checkLabel label with
    | .error e => .error e
    | .ok () => validateArgs args
/-- src/ast2/scope.rs:51-59. -/
def Scope.validate : Scope → Except InternalError Unit
  | .mk chunks _ => validateChunks chunks
/-- src/ast2/environment.rs:96-117. -/
def Environment.validate : Environment → Except InternalError Unit
  | .mk label args content _ _ =>
    match checkSanitised label with
    | .error e => .error e
    | .ok () =>
      match validateArgs args with
      | .error e => .error e
      | .ok () => validateChunks content
/-- `for chunk in .. { chunk.validate()? }`. -/
def validateChunks : List Chunk → Except InternalError Unit
  | [] => .ok ()
  | c :: cs =>
    match c.validate with
    | .error e => .error e
    | .ok () => validateChunks cs
/-- `for (_, arg) in .. { arg.validate()? }`. -/
def validateArgs : List (Str × Scope) → Except InternalError Unit
  | [] => .ok ()
  | (_, sc) :: r =>
    match sc.validate with
    | .error e => .error e
    | .ok () => validateArgs r
end

/-- The loop of src/ast2/document.rs:110-127, from a given `expected_line`. -/
def Document.validateFrom : Nat → List Chunk → Except InternalError Unit
  | _, [] => .ok ()
  | expected, c :: cs =>
    if c.lineNo ≠ expected then .error (.incorrectChunkLineNumber expected c.lineNo)
    else match c.validate with
      | .error e => .error e
      | .ok () => Document.validateFrom (expected + (c.lines - 1)) cs

/-- src/ast2/document.rs:109-128. -/
def Document.validate (d : Document) : Except InternalError Unit := Document.validateFrom 1 d

/-! ## Checked constructors -/

/-- src/ast2/chunk.rs:117-121. -/
def Chunk.new (lineNo : Nat) (v : ChunkVariant) : Except InternalError Chunk :=
  match v.validate with
  | .error e => .error e
  | .ok () => .ok (.mk lineNo v)
/-- src/ast2/command.rs:42-46. -/
def Command.new (label : Str) (args : List (Str × Scope)) : Except InternalError Command :=
  match (Command.mk label args).validate with
  | .error e => .error e
  | .ok () => .ok (.mk label args)
/-- src/ast2/scope.rs:73-77. -/
def Scope.new (chunks : List Chunk) (v : ScopeVariant) : Except InternalError Scope :=
  match (Scope.mk chunks v).validate with
  | .error e => .error e
  | .ok () => .ok (.mk chunks v)
/-- src/ast2/environment.rs:56-75. -/
def Environment.new (label : Str) (args : List (Str × Scope)) (content : List Chunk)
    (precBegin precEnd : Str) : Except InternalError Environment :=
  match (Environment.mk label args content precBegin precEnd).validate with
  | .error e => .error e
  | .ok () => .ok (.mk label args content precBegin precEnd)
/-- src/ast2/document.rs:21-25. -/
def Document.new (chunks : List Chunk) : Except InternalError Document :=
  match Document.validate chunks with
  | .error e => .error e
  | .ok () => .ok chunks

/-! ## Pushing -/

/-- src/ast2/document.rs:51-55 and 63-67. -/
def Document.nextLine (d : Document) : Nat :=
  match d.getLast? with
  | some last => last.lineNo + last.lines - 1
  | none => 1

/-- src/ast2/document.rs:81-92. -/
def Document.pushChunkUnchecked (d : Document) (chunk : Chunk) : Document :=
  match chunk.variant with
  | .text s =>
    match d.getLast? with
    | some (.mk l (.text lastS)) => d.dropLast ++ [.mk l (.text (lastS ++ s))]
    | _ => d ++ [chunk]
  | _ => d ++ [chunk]

/-- src/ast2/document.rs:50-57. -/
def Document.pushUnchecked (d : Document) (v : ChunkVariant) : Document :=
  Document.pushChunkUnchecked d (.mk (Document.nextLine d) v)

/-- src/ast2/document.rs:43-47. -/
def Document.push (d : Document) (v : ChunkVariant) : Except InternalError Unit × Document :=
  match v.validate with
  | .error e => (.error e, d)
  | .ok () => (.ok (), Document.pushUnchecked d v)

/-- src/ast2/document.rs:60-78. -/
def Document.pushChunk (d : Document) (chunk : Chunk) : Except InternalError Unit × Document :=
  match chunk.validate with
  | .error e => (.error e, d)
  | .ok () =>
    if Document.nextLine d ≠ chunk.lineNo then
      (.error (.incorrectChunkLineNumber (Document.nextLine d) chunk.lineNo), d)
    else (.ok (), Document.pushChunkUnchecked d chunk)

end LatexAst.Ast2
