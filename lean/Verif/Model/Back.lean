import Verif.Model.Conv3

/-!
# Conversions back: stage 2 → stage 1 and stage 3 → stage 2

Models `impl ast1::IntoChunks for ast2::Chunk` (src/ast2/chunk.rs:30-101), `ast2::Scope::to_ast1_scope`
(src/ast2/scope.rs:38-49), `From<ast2::Command> for ast1::Command` (src/ast1/command.rs:113-124),
`From<ast2::Document> for ast1::Document` (src/ast1/document.rs:143-153), and
`impl ast2::IntoChunks for ast3::{Chunk, MathsBlock}` (src/ast3/chunk.rs:74-109,
src/ast3/mathsblock.rs:315-400), `From<ast3::{Scope,Command,Environment,Document}>`
(src/ast2/scope.rs:117-128, command.rs:135-146, environment.rs:160-178, document.rs:140-195).
-/

namespace LatexAst.Ast2

/-- `fn lines` applied to the arguments in src/ast2/chunk.rs:49-61. -/
def argNewlines2 : List (Str × Scope) → Nat
  | [] => 0
  | (prec, arg) :: r => (newlines prec + newlines arg.display) + argNewlines2 r

mutual
/-- src/ast2/chunk.rs:30-101 for a chunk with line number `line` and the given variant. -/
def intoVariant (line : Nat) : ChunkVariant → Res (List Ast1.Chunk)
  | .text s => .ok [.mk line (.text s)]
  | .scope sc =>
    match intoScope sc with
    | .error f => .error f
    | .ok sc => .ok [.mk line (.scope sc)]
  | .command c =>
    match intoCommand c with
    | .error f => .error f
    | .ok c => .ok [.mk line (.command c)]
  | .environment e => intoEnvironment line e
/-- src/ast1/command.rs:113-124. -/
def intoCommand : Command → Res Ast1.Command
  | .mk label args =>
    match intoArgs args with
    | .error f => .error f
    | .ok args => .ok (.mk label args)
/-- src/ast2/scope.rs:38-49 (identical to `From<ast2::Scope> for ast1::Scope`,
src/ast1/scope.rs:91-102). -/
def intoScope : Scope → Res Ast1.Scope
  | .mk chunks v =>
    match intoChunks 0 chunks with
    | .error f => .error f
    | .ok cs => .ok (.mk cs v)
/-- The environment arm, src/ast2/chunk.rs:38-97. `ast1::Document::from_str(&label).unwrap()`
(line 64) panics when the label does not parse; `self.line_no - 1` (line 83) is evaluated once per
content chunk and panics when `line = 0`. -/
def intoEnvironment (line : Nat) : Environment → Res (List Ast1.Chunk)
  | .mk label args content precBegin precEnd =>
    match Ast1.fromStr label with
    | .error .fuel => .error .fuel
    | .error _ => panicked
    | .ok labelChunks =>
      match intoArgs args with
      | .error f => .error f
      | .ok args' =>
        if content.isEmpty = false ∧ line = 0 then panicked
        else
          match intoChunks (line - 1) content with
          | .error f => .error f
          | .ok content' =>
            .ok ([.mk line (.command (.mk chars!"begin"
                    ((precBegin, .mk labelChunks .curly) :: args')))] ++
                 (content' ++
                  [.mk (line + (newlines precBegin + newlines label +
                          newlines (displayChunks content) + argNewlines2 args))
                    (.command (.mk chars!"end" [(precEnd, .mk labelChunks .curly)]))]))
/-- `.flat_map(|mut chunk| { chunk.line_no += k; chunk.into_chunks() })` (with `k = 0` for the plain
`.flat_map(Chunk::into_chunks)`). -/
def intoChunks (k : Nat) : List Chunk → Res (List Ast1.Chunk)
  | [] => .ok []
  | .mk l v :: cs =>
    match intoVariant (l + k) v with
    | .error f => .error f
    | .ok xs =>
      match intoChunks k cs with
      | .error f => .error f
      | .ok ys => .ok (xs ++ ys)
/-- `.map(|(s, sc)| (s, sc.to_ast1_scope()))`. -/
def intoArgs : List (Str × Scope) → Res (List (Str × Ast1.Scope))
  | [] => .ok []
  | (prec, sc) :: r =>
    match intoScope sc with
    | .error f => .error f
    | .ok s =>
      match intoArgs r with
      | .error f => .error f
      | .ok args => .ok ((prec, s) :: args)
end

/-- The loop of `From<ast2::Document> for ast1::Document`, src/ast1/document.rs:147-149, where
`push_into_unchecked` (src/ast1/document.rs:98-103) pushes the produced chunks one by one. -/
def toAst1Loop : List Chunk → Ast1.Document → Res Ast1.Document
  | [], out => .ok out
  | .mk l v :: cs, out =>
    match intoVariant l v with
    | .error f => .error f
    | .ok xs => toAst1Loop cs (xs.foldl Ast1.Document.pushChunkUnchecked out)

/-- `From<ast2::Document> for ast1::Document`, src/ast1/document.rs:143-153. -/
def toAst1 (d : Document) : Res Ast1.Document := toAst1Loop d []

end LatexAst.Ast2

namespace LatexAst.Ast3

/-- `"$"` or `"$$"`, src/ast3/mathsblock.rs:367-371. -/
def dollars : MathsType → Str
  | .inline => chars!"$"
  | .outline => chars!"$$"

/-- Prepend to the first chunk if it is text, else insert a text chunk at line 1;
src/ast3/mathsblock.rs:380-387. -/
def prependDollars (d : Str) : List Ast2.Chunk → List Ast2.Chunk
  | .mk l (.text s) :: cs => .mk l (.text (d ++ s)) :: cs
  | cs => .mk 1 (.text d) :: cs

/-- Append to the last chunk if it is text, else push a text chunk at line `lines`;
src/ast3/mathsblock.rs:389-396. -/
def appendDollars (d : Str) (lines : Nat) (cs : List Ast2.Chunk) : List Ast2.Chunk :=
  match cs.getLast? with
  | some (.mk l (.text s)) => cs.dropLast ++ [.mk l (.text (s ++ d))]
  | _ => cs ++ [.mk lines (.text d)]

/-- src/ast3/mathsblock.rs:315-400, given the already converted content. -/
def wrapMaths (v : MathsVariant) (t : MathsType) (lines : Nat) (content : List Ast2.Chunk) :
    List Ast2.Chunk :=
  match v, t with
  | .brackets, .inline =>
    [.mk 1 (.command (.mk chars!"(" []))] ++ (content ++ [.mk lines (.command (.mk chars!")" []))])
  | .brackets, .outline =>
    [.mk 1 (.command (.mk chars!"[" []))] ++ (content ++ [.mk lines (.command (.mk chars!"]" []))])
  | .dollars, t =>
    if content.isEmpty then [.mk 1 (.text (dollars t ++ dollars t))]
    else appendDollars (dollars t) lines (prependDollars (dollars t) content)

mutual
/-- src/ast3/chunk.rs:74-109 for a chunk with line number `line`; for a maths block `line_no - 1`
(line 95) is evaluated for each produced chunk (there is always one) and panics when `line = 0`. -/
def intoVariant (line : Nat) : ChunkVariant → Res (List Ast2.Chunk)
  | .text s => .ok [.mk line (.text s)]
  | .paragraphBreak s => .ok [.mk line (.text s)]
  | .scope sc =>
    match intoScope sc with
    | .error f => .error f
    | .ok sc => .ok [.mk line (.scope sc)]
  | .command c =>
    match intoCommand c with
    | .error f => .error f
    | .ok c => .ok [.mk line (.command c)]
  | .environment e =>
    match intoEnvironment e with
    | .error f => .error f
    | .ok e => .ok [.mk line (.environment e)]
  | .mathsBlock m =>
    match intoMaths m with
    | .error f => .error f
    | .ok cs => if line = 0 then panicked else .ok (cs.map (Ast2.Chunk.shift (line - 1)))
/-- src/ast2/command.rs:135-146. -/
def intoCommand : Command → Res Ast2.Command
  | .mk label args =>
    match intoArgs args with
    | .error f => .error f
    | .ok args => .ok (.mk label args)
/-- src/ast2/scope.rs:117-128. -/
def intoScope : Scope → Res Ast2.Scope
  | .mk chunks v =>
    match intoChunks chunks with
    | .error f => .error f
    | .ok cs => .ok (.mk cs v)
/-- src/ast2/environment.rs:160-178. -/
def intoEnvironment : Environment → Res Ast2.Environment
  | .mk label args content precBegin precEnd =>
    match intoArgs args with
    | .error f => .error f
    | .ok args =>
      match intoChunks content with
      | .error f => .error f
      | .ok content => .ok (.mk label args content precBegin precEnd)
/-- src/ast3/mathsblock.rs:315-400. -/
def intoMaths : MathsBlock → Res (List Ast2.Chunk)
  | .mk v t content =>
    match intoChunks content with
    | .error f => .error f
    | .ok cs => .ok (wrapMaths v t (linesSum content + 1) cs)
/-- `.flat_map(Chunk::into_chunks)`. -/
def intoChunks : List Chunk → Res (List Ast2.Chunk)
  | [] => .ok []
  | .mk l v :: cs =>
    match intoVariant l v with
    | .error f => .error f
    | .ok xs =>
      match intoChunks cs with
      | .error f => .error f
      | .ok ys => .ok (xs ++ ys)
/-- `.map(|(s, sc)| (s, sc.into()))`. -/
def intoArgs : List (Str × Scope) → Res (List (Str × Ast2.Scope))
  | [] => .ok []
  | (prec, sc) :: r =>
    match intoScope sc with
    | .error f => .error f
    | .ok s =>
      match intoArgs r with
      | .error f => .error f
      | .ok args => .ok ((prec, s) :: args)
end

/-- `From<ast3::Document> for ast2::Document`, src/ast2/document.rs:140-195. The subtraction
`body.lines() + prem_lines - 2` (line 180) panics on underflow. -/
def toAst2 (d : Document) : Res Ast2.Document :=
  match intoChunks d.preamable with
  | .error f => .error f
  | .ok preamable =>
    let premLines := Ast2.linesSum preamable
    let bodyOffset := linesArgs d.bodyArgs + newlines d.bodyBeginPrec
    match intoChunks d.body with
    | .error f => .error f
    | .ok body =>
      match intoArgs d.bodyArgs with
      | .error f => .error f
      | .ok bodyArgs =>
        let bodyChunk : Ast2.Chunk := .mk premLines (.environment
          (.mk chars!"document" bodyArgs (body.map (Ast2.Chunk.shift bodyOffset))
            d.bodyBeginPrec d.bodyEndPrec))
        match checkedSub (bodyChunk.lines + premLines) 2 with
        | .error p => .error p
        | .ok trailingOffset =>
          match intoChunks d.trailing with
          | .error f => .error f
          | .ok trailing =>
            .ok ((trailing.map (Ast2.Chunk.shift trailingOffset)).foldl
              Ast2.Document.pushChunkUnchecked
              (Ast2.Document.pushChunkUnchecked preamable bodyChunk))

end LatexAst.Ast3
