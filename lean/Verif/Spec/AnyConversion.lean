import Verif.Spec.Conversion

/-!
# Specification: how any stage-1 document becomes a stage-2 document, or fails to

`Spec/Conversion.lean` leaves out documents that are numbered backwards (which a parser never makes, but a program can): on them the
subtraction of line numbers panics. `Meets d r` is for every document: converting the chunks `d` gives `r`, which is the stage-2 chunks, an
error, or a panic.
-/

namespace LatexAst.Ast2
open Ast1 (Opened Matched)

/-- What converting gives: chunks, an error, or a panic. -/
abbrev Ending := Res (List Chunk)

/-- A chunk before the rest. -/
def Ending.after (c : Chunk) : Ending → Ending
  | .ok cs => .ok (c :: cs)
  | .error f => .error f

/-- Arguments, from what their contents give; the first failure counts. -/
def argEnding : List ((Str × Ast1.Scope) × Ending) → Res (List (Str × Scope))
  | [] => .ok []
  | ((p, sc), r) :: rest =>
    match r with
    | .error f => .error f
    | .ok inner =>
      match argEnding rest with
      | .error f => .error f
      | .ok args => .ok ((p, .mk inner sc.variant) :: args)

/-- A failure inside something that starts on line `l`: an error is counted from line `l` (one too many). -/
def failIn (l : Nat) : Fail → Fail
  | .err e => .err (offBy l e)
  | f => f

/-- A scope before the rest. -/
def scopeEnding (l : Nat) (sv : ScopeVariant) (inner rest : Ending) : Ending :=
  match inner with
  | .error f => .error (failIn l f)
  | .ok cs => rest.after (.mk l (.scope (.mk cs sv)))

/-- A command before the rest. -/
def commandEnding (l : Nat) (label : Str) (items : List ((Str × Ast1.Scope) × Ending)) (rest : Ending) : Ending :=
  match argEnding items with
  | .error f => .error f
  | .ok args => rest.after (.mk l (.command (.mk label args)))

/-- An environment before the rest; `start` is the line on which its content starts. -/
def environmentEnding (start : Nat) (label pb pe : Str) (items : List ((Str × Ast1.Scope) × Ending)) (content rest : Ending) : Ending :=
  match argEnding items with
  | .error f => .error f
  | .ok args =>
    match content with
    | .error f => .error (failIn start f)
    | .ok cs => rest.after (.mk start (.environment (.mk label args cs pb pe)))

/-- None of the chunks is above line `n`. -/
def NotAbove (n : Nat) (cs : List Ast1.Chunk) : Prop := ∀ c ∈ cs, n ≤ c.lineNo

/-- The conversion of any stage-1 chunks. -/
inductive Meets : List Ast1.Chunk → Ending → Prop
  | nil : Meets [] (.ok [])
  | text {l t cs r} : Meets cs r → Meets (.mk l (.text t) :: cs) (r.after (.mk l (.text t)))
  | scope {l inner sv cs i r} : Meets inner i → Meets cs r → Meets (.mk l (.scope (.mk inner sv)) :: cs) (scopeEnding l sv i r)
  /-- A command other than `\begin` and `\end`. -/
  | command {l label cs r} {items : List ((Str × Ast1.Scope) × Ending)} : label ≠ chars!"begin" → label ≠ chars!"end" →
      (∀ x ∈ items, Meets x.1.2.chunks x.2) → Meets cs r →
      Meets (.mk l (.command (.mk label (items.map (·.1)))) :: cs) (commandEnding l label items r)
  /-- An environment, with nothing in it above the line on which its `\begin` ends. -/
  | environment {l p lab body l' pe cs i r} {items : List ((Str × Ast1.Scope) × Ending)} : Matched body →
      NotAbove (endOfBegin l ((p, .mk lab .curly) :: items.map (·.1))) body →
      (∀ x ∈ items, Meets x.1.2.chunks x.2) →
      Meets (body.map (renumber (endOfBegin l ((p, .mk lab .curly) :: items.map (·.1))))) i →
      Meets cs r →
      Meets (.mk l (.command (.mk chars!"begin" ((p, .mk lab .curly) :: items.map (·.1)))) ::
          (body ++ .mk l' (.command (.mk chars!"end" [(pe, .mk lab .curly)])) :: cs))
        (environmentEnding (endOfBegin l ((p, .mk lab .curly) :: items.map (·.1))) (Ast1.displayChunks lab) p pe items i r)
  /-- A chunk in an environment, also in those in it, above the line on which the outermost `\begin` ends: a panic. -/
  | above {l p lab args body c st cs} : Opened (body ++ [c]) st → NotAbove (endOfBegin l ((p, .mk lab .curly) :: args)) body →
      c.lineNo < endOfBegin l ((p, .mk lab .curly) :: args) →
      Meets (.mk l (.command (.mk chars!"begin" ((p, .mk lab .curly) :: args))) :: (body ++ c :: cs)) (.error .panic)
  /-- A `\begin` or `\end` that cannot come here. -/
  | bad {c cs t} : BadDelimiter [] c t → Meets (c :: cs) (.error (.err ⟨c.lineNo, t⟩))
  /-- A `\begin` or `\end` that cannot come inside the environment opened first. -/
  | badInside {l p lab args body st c cs t} : Opened body st → NotAbove (endOfBegin l ((p, .mk lab .curly) :: args)) body →
      BadDelimiter (st ++ [lab]) c t →
      Meets (.mk l (.command (.mk chars!"begin" ((p, .mk lab .curly) :: args))) :: (body ++ c :: cs)) (.error (.err ⟨c.lineNo, t⟩))
  /-- An environment that is still open at the end; the outermost one is reported. -/
  | unclosed {l p lab args body st} : Opened body st → NotAbove (endOfBegin l ((p, .mk lab .curly) :: args)) body →
      Meets (.mk l (.command (.mk chars!"begin" ((p, .mk lab .curly) :: args))) :: body)
        (.error (.err ⟨endOfBegin l ((p, .mk lab .curly) :: args), .unclosedEnvironment (Ast1.displayChunks lab)⟩))

end LatexAst.Ast2
