import Verif.Model.Conv2

/-!
# Stage 3 data types: display, line counts, validation, pushing

Models src/ast3/{chunk,chunkvariant,command,scope,environment,mathsblock,mathstype,mathsvariant,
document}.rs, except the conversion from stage 2 (`Verif.Model.Conv3`) and the conversions back
(`Verif.Model.Back`). `ast3::ScopeVariant` (src/ast3/scopevariant.rs) is again the same three
constructors; the model uses one type.
-/

namespace LatexAst.Ast3

open LatexAst.Ast1 (checkSanitised isSpecial)
open LatexAst.Ast2 (checkLabel)

/-- src/ast3/mathsvariant.rs:5-10. -/
inductive MathsVariant where
  | brackets
  | dollars
deriving DecidableEq, Repr

/-- src/ast3/mathstype.rs:5-10. -/
inductive MathsType where
  | inline
  | outline
deriving DecidableEq, Repr

mutual
/-- src/ast3/chunk.rs:18-21. -/
inductive Chunk where
  | mk (lineNo : Nat) (variant : ChunkVariant)
/-- src/ast3/chunkvariant.rs:14-27. -/
inductive ChunkVariant where
  | text (s : Str)
  | paragraphBreak (s : Str)
  | mathsBlock (m : MathsBlock)
  | command (c : Command)
  | scope (sc : Scope)
  | environment (e : Environment)
/-- src/ast3/command.rs:16-23. -/
inductive Command where
  | mk (label : Str) (arguments : List (Str × Scope))
/-- src/ast3/scope.rs:18-21. -/
inductive Scope where
  | mk (chunks : List Chunk) (variant : ScopeVariant)
/-- src/ast3/environment.rs:16-23. -/
inductive Environment where
  | mk (label : Str) (arguments : List (Str × Scope)) (content : List Chunk)
       (precBegin precEnd : Str)
/-- src/ast3/mathsblock.rs:16-20. -/
inductive MathsBlock where
  | mk (variant : MathsVariant) (type : MathsType) (content : List Chunk)
end

/-- `(String, String, Option<(String, String, String)>, String)`: prec, key,
(equal prec, equal post, val), post; src/ast3/document.rs:20-21. -/
abbrev DocOption := Str × Str × Option (Str × Str × Str) × Str

/-- src/ast3/document.rs:18-31. -/
structure Document where
  documentclass : Option Str
  documentoptions : List DocOption
  preamable : List Chunk
  body : List Chunk
  bodyArgs : List (Str × Scope)
  bodyBeginPrec : Str
  bodyEndPrec : Str
  trailing : List Chunk

/-- `Document::default()`, src/ast3/document.rs:15. -/
def Document.default : Document := ⟨none, [], [], [], [], [], [], []⟩

/-- src/ast3/chunk.rs:37-39. -/
def Chunk.lineNo : Chunk → Nat
  | .mk l _ => l
/-- src/ast3/chunk.rs:42-44. -/
def Chunk.variant : Chunk → ChunkVariant
  | .mk _ v => v

/-! ## Display -/

/-- src/ast3/mathsblock.rs:404-409: the opening and closing delimiters. -/
def delimiters : MathsVariant → MathsType → Str × Str
  | .brackets, .outline => (chars!"\\[", chars!"\\]")
  | .brackets, .inline => (chars!"\\(", chars!"\\)")
  | .dollars, .outline => (chars!"$$", chars!"$$")
  | .dollars, .inline => (chars!"$", chars!"$")

mutual
/-- src/ast3/chunk.rs:111-115. -/
def Chunk.display : Chunk → Str
  | .mk _ v => v.display
/-- src/ast3/chunkvariant.rs:92-102. -/
def ChunkVariant.display : ChunkVariant → Str
  | .text s => s
  | .paragraphBreak s => s
  | .mathsBlock m => m.display
  | .command c => c.display
  | .scope sc => sc.display
  | .environment e => e.display
/-- src/ast3/command.rs:120-133. -/
def Command.display : Command → Str
  | .mk label args => '\\' :: (label ++ displayArgs args)
/-- src/ast3/scope.rs:90-102. -/
def Scope.display : Scope → Str
  | .mk chunks v => v.opening :: (displayChunks chunks ++ [v.closing])
/-- src/ast3/environment.rs:153-173. -/
def Environment.display : Environment → Str
  | .mk label args content precBegin precEnd =>
    chars!"\\begin" ++ (precBegin ++ ('{' :: (label ++ ('}' :: (displayArgs args ++
      (displayChunks content ++ (chars!"\\end" ++ (precEnd ++ ('{' :: (label ++ ['}']))))))))))
/-- src/ast3/mathsblock.rs:402-419. -/
def MathsBlock.display : MathsBlock → Str
  | .mk variant type content =>
    (delimiters variant type).1 ++ (displayChunks content ++ (delimiters variant type).2)
/-- `.iter().map(ToString::to_string).collect::<String>()`. -/
def displayChunks : List Chunk → Str
  | [] => []
  | c :: cs => c.display ++ displayChunks cs
/-- the folds over arguments. -/
def displayArgs : List (Str × Scope) → Str
  | [] => []
  | (prec, sc) :: r => prec ++ (sc.display ++ displayArgs r)
end

/-- The synthetic `Scope` `{document}`, src/ast3/document.rs:460-466 and 483-489. -/
def documentScope : Scope := .mk [.mk 1 (.text chars!"document")] .curly

/-- src/ast3/document.rs:448-501: preamable, `\begin{document}` with the body arguments, body,
`\end{document}`, trailing. Note line 482: the string put between `\end` and `{document}` is
`body_begin_prec`, not `body_end_prec`. -/
def Document.display (d : Document) : Str :=
  displayChunks
    (d.preamable ++
      ([.mk 1 (.command (.mk chars!"begin" ((d.bodyBeginPrec, documentScope) :: d.bodyArgs)))] ++
        (d.body ++
          ([.mk 1 (.command (.mk chars!"end" [(d.bodyBeginPrec, documentScope)]))] ++
            d.trailing))))

/-! ## Lines -/

mutual
/-- src/ast3/chunk.rs:68-72. -/
def Chunk.lines : Chunk → Nat
  | .mk _ v => v.lines
/-- src/ast3/chunkvariant.rs:78-90. -/
def ChunkVariant.lines : ChunkVariant → Nat
  | .text s => newlines s + 1
  | .paragraphBreak s => newlines s + 1
  | .command c => c.lines
  | .scope sc => sc.lines
  | .environment e => e.lines
  | .mathsBlock m => m.lines
/-- src/ast3/command.rs:107-118. -/
def Command.lines : Command → Nat
  | .mk label args => newlines label + linesArgs args + 1
/-- src/ast3/scope.rs:80-88. -/
def Scope.lines : Scope → Nat
  | .mk chunks _ => linesSum chunks + 1
/-- src/ast3/environment.rs:130-151. -/
def Environment.lines : Environment → Nat
  | .mk label args content precBegin precEnd =>
    newlines label * 2 + newlines (precBegin ++ precEnd) + linesArgs args + linesSum content + 1
/-- src/ast3/mathsblock.rs:54-62. -/
def MathsBlock.lines : MathsBlock → Nat
  | .mk _ _ content => linesSum content + 1
/-- `.map(|chunk| chunk.lines() - 1).sum()`. -/
def linesSum : List Chunk → Nat
  | [] => 0
  | c :: cs => (c.lines - 1) + linesSum cs
/-- the loops over arguments. -/
def linesArgs : List (Str × Scope) → Nat
  | [] => 0
  | (prec, sc) :: r => newlines prec + (sc.lines - 1) + linesArgs r
end

/-- src/ast3/document.rs:56-66. -/
def Document.lines (d : Document) : Nat :=
  linesSum (d.preamable ++ (d.body ++ d.trailing)) + 1

/-! ## Validate -/

/-- The `Text` arm of src/ast3/chunkvariant.rs:32-50, with the loop variable `consec`. -/
def checkText : Bool → Str → Except InternalError Unit
  | _, [] => .ok ()
  | consec, c :: cs =>
    if isSpecial c then .error (.unsanitisedCharInString c)
    else if c = '\n' then
      if consec then .error .unbrokenParagraph else checkText true cs
    else if isWhitespace c then checkText consec cs
    else checkText false cs

/-- The `ParagraphBreak` arm of src/ast3/chunkvariant.rs:51-67, with the loop variable
`new_lines`. -/
def checkBreak : Nat → Str → Except InternalError Unit
  | n, [] => if n < 2 then .error .paragraphBreakTooShort else .ok ()
  | n, c :: cs =>
    if isWhitespace c = false then .error .paragraphBreakNonwhitespace
    else if c = '\n' then checkBreak (n + 1) cs
    else checkBreak n cs

mutual
/-- src/ast3/chunk.rs:62-66. -/
def Chunk.validate : Chunk → Except InternalError Unit
  | .mk _ v => v.validate
/-- src/ast3/chunkvariant.rs:29-76. -/
def ChunkVariant.validate : ChunkVariant → Except InternalError Unit
  | .text s => checkText false s
  | .paragraphBreak s => checkBreak 0 s
  | .mathsBlock m => m.validate
  | .command c => c.validate
  | .scope sc => sc.validate
  | .environment e => e.validate
/-- src/ast3/command.rs:80-105. -/
def Command.validate : Command → Except InternalError Unit
  | .mk label args =>
    match checkLabel label with
    | .error e => .error e
    | .ok () => validateArgs args
/-- src/ast3/scope.rs:70-78. -/
def Scope.validate : Scope → Except InternalError Unit
  | .mk chunks _ => validateChunks chunks
/-- src/ast3/environment.rs:107-128. -/
def Environment.validate : Environment → Except InternalError Unit
  | .mk label args content _ _ =>
    match checkSanitised label with
    | .error e => .error e
    | .ok () =>
      match validateArgs args with
      | .error e => .error e
      | .ok () => validateChunks content
/-- src/ast3/mathsblock.rs:44-52. -/
def MathsBlock.validate : MathsBlock → Except InternalError Unit
  | .mk _ _ content => validateChunks content
/-- `for chunk in .. { chunk.validate()? }`. -/
def validateChunks : List Chunk → Except InternalError Unit
  | [] => .ok ()
  | c :: cs =>
    match c.validate with
    | .error e => .error e
    | .ok () => validateChunks cs
/-- `for (_, arg) in .. { arg.validate()? }`. -/
def validateArgs : List (Str × Scope) → Except InternalError Unit
  | [] => .ok ()
  | (_, sc) :: r =>
    match sc.validate with
    | .error e => .error e
    | .ok () => validateArgs r
end

/-- The inner loop of src/ast3/document.rs:38-49, from a given `expected_line`. -/
def validateFrom : Nat → List Chunk → Except InternalError Unit
  | _, [] => .ok ()
  | expected, c :: cs =>
    if c.lineNo ≠ expected then .error (.incorrectChunkLineNumber expected c.lineNo)
    else match c.validate with
      | .error e => .error e
      | .ok () => validateFrom (expected + (c.lines - 1)) cs

/-- src/ast3/document.rs:33-54: the sections preamable, body, trailing, each from line 1. -/
def Document.validate (d : Document) : Except InternalError Unit :=
  match validateFrom 1 d.preamable with
  | .error e => .error e
  | .ok () =>
    match validateFrom 1 d.body with
    | .error e => .error e
    | .ok () => validateFrom 1 d.trailing

/-! ## Checked constructors -/

/-- src/ast3/chunk.rs:25-29. -/
def Chunk.new (lineNo : Nat) (v : ChunkVariant) : Except InternalError Chunk :=
  match v.validate with
  | .error e => .error e
  | .ok () => .ok (.mk lineNo v)
/-- src/ast3/command.rs:27-31. -/
def Command.new (label : Str) (args : List (Str × Scope)) : Except InternalError Command :=
  match (Command.mk label args).validate with
  | .error e => .error e
  | .ok () => .ok (.mk label args)
/-- src/ast3/scope.rs:25-29. -/
def Scope.new (chunks : List Chunk) (v : ScopeVariant) : Except InternalError Scope :=
  match (Scope.mk chunks v).validate with
  | .error e => .error e
  | .ok () => .ok (.mk chunks v)
/-- src/ast3/environment.rs:27-46. -/
def Environment.new (label : Str) (args : List (Str × Scope)) (content : List Chunk)
    (precBegin precEnd : Str) : Except InternalError Environment :=
  match (Environment.mk label args content precBegin precEnd).validate with
  | .error e => .error e
  | .ok () => .ok (.mk label args content precBegin precEnd)
/-- src/ast3/mathsblock.rs:24-32. -/
def MathsBlock.new (v : MathsVariant) (t : MathsType) (content : List Chunk) :
    Except InternalError MathsBlock :=
  match (MathsBlock.mk v t content).validate with
  | .error e => .error e
  | .ok () => .ok (.mk v t content)
/-- src/ast3/document.rs:71-93 (the fields are passed as one structure). -/
def Document.new (d : Document) : Except InternalError Document :=
  match d.validate with
  | .error e => .error e
  | .ok () => .ok d

/-! ## Pushing -/

/-- src/ast3/document.rs:152-155 and 170-173. -/
def nextLine (vec : List Chunk) : Nat :=
  match vec.getLast? with
  | some last => last.lineNo + last.lines - 1
  | none => 1

/-- `push_chunk_vec_unchecked`, src/ast3/document.rs:135-146. -/
def pushChunkVecUnchecked (vec : List Chunk) (chunk : Chunk) : List Chunk :=
  match chunk.variant with
  | .text s =>
    match vec.getLast? with
    | some (.mk l (.text lastS)) => vec.dropLast ++ [.mk l (.text (lastS ++ s))]
    | _ => vec ++ [chunk]
  | _ => vec ++ [chunk]

/-- `push_chunk_vec`, src/ast3/document.rs:149-166. -/
def pushChunkVec (vec : List Chunk) (chunk : Chunk) : Except InternalError Unit × List Chunk :=
  match chunk.validate with
  | .error e => (.error e, vec)
  | .ok () =>
    if nextLine vec ≠ chunk.lineNo then
      (.error (.incorrectChunkLineNumber (nextLine vec) chunk.lineNo), vec)
    else (.ok (), pushChunkVecUnchecked vec chunk)

/-- `push_vec_unchecked`, src/ast3/document.rs:169-175. -/
def pushVecUnchecked (vec : List Chunk) (v : ChunkVariant) : List Chunk :=
  pushChunkVecUnchecked vec (.mk (nextLine vec) v)

/-- `push_vec`, src/ast3/document.rs:178-182. -/
def pushVec (vec : List Chunk) (v : ChunkVariant) : Except InternalError Unit × List Chunk :=
  match v.validate with
  | .error e => (.error e, vec)
  | .ok () => (.ok (), pushVecUnchecked vec v)

/-- src/ast3/document.rs:185-187. -/
def Document.pushBody (d : Document) (v : ChunkVariant) : Except InternalError Unit × Document :=
  ((pushVec d.body v).1, { d with body := (pushVec d.body v).2 })
/-- src/ast3/document.rs:190-192. -/
def Document.pushBodyUnchecked (d : Document) (v : ChunkVariant) : Document :=
  { d with body := pushVecUnchecked d.body v }
/-- src/ast3/document.rs:195-197. -/
def Document.pushBodyChunk (d : Document) (c : Chunk) : Except InternalError Unit × Document :=
  ((pushChunkVec d.body c).1, { d with body := (pushChunkVec d.body c).2 })
/-- src/ast3/document.rs:200-202. -/
def Document.pushBodyChunkUnchecked (d : Document) (c : Chunk) : Document :=
  { d with body := pushChunkVecUnchecked d.body c }
/-- src/ast3/document.rs:205-207. -/
def Document.pushPreamable (d : Document) (v : ChunkVariant) :
    Except InternalError Unit × Document :=
  ((pushVec d.preamable v).1, { d with preamable := (pushVec d.preamable v).2 })
/-- src/ast3/document.rs:210-212. -/
def Document.pushPreamableUnchecked (d : Document) (v : ChunkVariant) : Document :=
  { d with preamable := pushVecUnchecked d.preamable v }
/-- src/ast3/document.rs:215-217. -/
def Document.pushPreamableChunk (d : Document) (c : Chunk) :
    Except InternalError Unit × Document :=
  ((pushChunkVec d.preamable c).1, { d with preamable := (pushChunkVec d.preamable c).2 })
/-- src/ast3/document.rs:220-222. -/
def Document.pushPreamableChunkUnchecked (d : Document) (c : Chunk) : Document :=
  { d with preamable := pushChunkVecUnchecked d.preamable c }
/-- src/ast3/document.rs:225-227. -/
def Document.pushTrailing (d : Document) (v : ChunkVariant) :
    Except InternalError Unit × Document :=
  ((pushVec d.trailing v).1, { d with trailing := (pushVec d.trailing v).2 })
/-- src/ast3/document.rs:230-232. -/
def Document.pushTrailingUnchecked (d : Document) (v : ChunkVariant) : Document :=
  { d with trailing := pushVecUnchecked d.trailing v }
/-- src/ast3/document.rs:235-237. -/
def Document.pushTrailingChunk (d : Document) (c : Chunk) :
    Except InternalError Unit × Document :=
  ((pushChunkVec d.trailing c).1, { d with trailing := (pushChunkVec d.trailing c).2 })
/-- src/ast3/document.rs:240-242. -/
def Document.pushTrailingChunkUnchecked (d : Document) (c : Chunk) : Document :=
  { d with trailing := pushChunkVecUnchecked d.trailing c }

end LatexAst.Ast3
