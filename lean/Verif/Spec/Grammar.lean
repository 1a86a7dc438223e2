import Verif.Spec.WellFormed

/-!
# Specification: the grammar of stage 1

`Reads l s o`: the source `s`, whose first character is on line `l`, is read with outcome `o` (the
chunks, or the error reported). The relation says how a source is cut into texts, scopes and commands;
it has no buffers, modes or depth counters, and contents of scopes and arguments are read as sources of
their own. `Props/Grammar.lean` proves that the parser computes exactly this relation.
-/

namespace LatexAst.Ast1
open Spec

/-- What reading a source gives. -/
abbrev Outcome := Except Error (List Chunk)

/-- Blanks between the parts of a command (or after it), as written and as kept: a backslash in front of
such a blank is not kept. -/
inductive Gap : Str → Str → Prop
  | nil : Gap [] []
  | plain {c g k} : isWhitespace c = true → Gap g k → Gap (c :: g) (c :: k)
  | escaped {c g k} : isWhitespace c = true → Gap g k → Gap ('\\' :: c :: g) (c :: k)

/-- A bracketed argument as written: the blanks kept before it, its kind, the text between the
brackets. -/
structure WrittenArg where
  prec : Str
  kind : ScopeVariant
  content : Str

/-- A sequence of arguments as written. (A backslash before an opening bracket is not kept here.) -/
inductive Written : Str → List WrittenArg → Prop
  | none : Written [] []
  | arg {g p b v a w args} : Gap g p → (b = [] ∨ b = ['\\']) → NoDangling a → Balanced v 0 a →
      Written w args →
      Written (g ++ b ++ v.opening :: (a ++ v.closing :: w)) (⟨p, v, a⟩ :: args)

/-- An opening bracket of kind `v` followed by `s` is never closed. -/
def NeverClosed (v : ScopeVariant) (s : Str) : Prop :=
  ¬ ∃ a r, s = a ++ v.closing :: r ∧ NoDangling a ∧ Balanced v 0 a

/-- A text ends here: at the end, a backslash or an opening bracket. -/
def TextEnds (r : Str) : Prop := ∀ c r', r = c :: r' → c ∈ ['\\', '{', '[', '(']

/-- After a letter command (with arguments `args`) and blanks `g`, the source goes on with `t`, which
belongs neither to the name nor to the arguments nor to the blanks, and is not an unmatched closing
bracket right after the command. -/
def GoesOn (args : List WrittenArg) (g t : Str) : Prop :=
  (∃ c r, t = '\\' :: c :: r ∧ isWhitespace c = false ∧ c ∉ ['{', '[', '(']) ∨
  (∃ c r, t = c :: r ∧ c ≠ '\\' ∧ isWhitespace c = false ∧ c ∉ ['{', '[', '('] ∧
    (g = [] → args ≠ [] ∧ c ∉ ['}', ']', ')']))

/-- The outcome of a chunk read before the rest. -/
def Outcome.after (c : Chunk) : Outcome → Outcome
  | .ok cs => .ok (c :: cs)
  | .error e => .error e

/-- Errors of a content that starts on line `l`, counted from line `l`. -/
def shifted (l : Nat) (e : Error) : Error := ⟨e.line + (l - 1), e.type⟩

/-- The arguments of a command, from the outcomes of their contents; the first error counts. -/
def argOutcome : List (WrittenArg × Outcome) → Except Error (List (Str × Scope))
  | [] => .ok []
  | (a, o) :: r =>
    match o with
    | .error e => .error e
    | .ok inner =>
      match argOutcome r with
      | .error e => .error e
      | .ok args => .ok ((a.prec, .mk inner a.kind) :: args)

/-- The outcome of a letter command read before the rest. -/
def commandOutcome (l : Nat) (name : Str) (items : List (WrittenArg × Outcome)) (rest : Outcome) : Outcome :=
  match argOutcome items with
  | .error e => .error (shifted l e)
  | .ok args => rest.after (.mk l (.command (.mk name args)))

/-- The outcome of a free scope read before the rest. -/
def scopeOutcome (l : Nat) (inner : Outcome) (rest : Outcome) : Outcome :=
  match inner with
  | .error e => .error (shifted l e)
  | .ok cs => rest.after (.mk l (.scope (.mk cs .curly)))

/-- The grammar of (comment-free) sources. -/
inductive Reads : Nat → Str → Outcome → Prop
  /-- Nothing. -/
  | nil {l} : Reads l [] (.ok [])
  /-- A text extends up to the next backslash or opening bracket. -/
  | text {l t r o} : t ≠ [] → (∀ x ∈ t, x ∉ ['\\', '%', '{', '[', '(']) → TextEnds r →
      Reads (l + t.count '\n') r o →
      Reads l (t ++ r) (o.after (.mk l (.text t)))
  /-- A free scope. Its content is read on its own; brackets of other kinds need not match. -/
  | scope {l v a r i o} : NoDangling a → Balanced v 0 a → Reads 1 a i →
      Reads (l + a.count '\n') r o →
      Reads l (v.opening :: (a ++ v.closing :: r)) (scopeOutcome l i o)
  /-- A free scope that is not closed. -/
  | openScope {l v a} : NeverClosed v a → Reads l (v.opening :: a) (.error ⟨l, .unclosedScope v⟩)
  /-- A symbol command: one character, no arguments. -/
  | symbol {l c r o} : isAsciiAlphabetic c = false → Reads (l + [c].count '\n') r o →
      Reads l ('\\' :: c :: r) (o.after (.mk (l + [c].count '\n') (.command (.mk [c] []))))
  /-- A letter command with all its arguments, followed by something else; the blanks in between are the
  beginning of a text. -/
  | command {l name w g k t o} {items : List (WrittenArg × Outcome)} : LetterName name →
      Written w (items.map (·.1)) → Gap g k → GoesOn (items.map (·.1)) g t →
      (∀ x ∈ items, Reads 1 (dropBrackets x.1.kind x.1.content) x.2) →
      Reads (l + w.count '\n') (k ++ t) o →
      Reads l ('\\' :: (name ++ (w ++ (g ++ t)))) (commandOutcome l name items o)
  /-- A letter command at the end of the source, possibly followed by blanks (which are numbered by the
  line on which they end). -/
  | lastCommand {l name w g k} {items : List (WrittenArg × Outcome)} : LetterName name →
      Written w (items.map (·.1)) → Gap g k →
      (∀ x ∈ items, Reads 1 (dropBrackets x.1.kind x.1.content) x.2) →
      Reads l ('\\' :: (name ++ (w ++ g))) (commandOutcome l name items
        (.ok (if k = [] then [] else [.mk (l + w.count '\n' + k.count '\n') (.text k)])))
  /-- An argument that is not closed. -/
  | openArgument {l name w args g k b v a} : LetterName name → Written w args → Gap g k →
      (b = [] ∨ b = ['\\']) → NeverClosed v a →
      Reads l ('\\' :: (name ++ (w ++ (g ++ (b ++ v.opening :: a))))) (.error ⟨l, .unclosedArgument v⟩)
  /-- A closing bracket right after a letter command or its arguments. -/
  | closing {l name w args} {v : ScopeVariant} {r} : LetterName name → Written w args →
      Reads l ('\\' :: (name ++ (w ++ v.closing :: r))) (.error ⟨l + w.count '\n', .unexpectedClosing v⟩)

/-- The source without a backslash at its very end that escapes nothing. -/
def dropDangling : Str → Str
  | [] => []
  | ['\\'] => []
  | '\\' :: c :: r => '\\' :: c :: dropDangling r
  | c :: r => c :: dropDangling r

/-- The chunk, `k` lines further down (contents of scopes and arguments are numbered on their own). -/
def Chunk.shift (k : Nat) : Chunk → Chunk
  | .mk l v => .mk (l + k) v

/-- The outcome of the same source `k` lines further down. -/
def Outcome.shift (k : Nat) : Outcome → Outcome
  | .ok cs => .ok (cs.map (Chunk.shift k))
  | .error e => .error ⟨e.line + k, e.type⟩

/-- The last chunk cannot be continued: it is not a letter command (which could take further arguments or
blanks), nor blanks after one. -/
def Complete (d : List Chunk) : Prop :=
  ¬ EndsWithLetterCommand d ∧
  ¬ ∃ init l t, d = init ++ [.mk l (.text t)] ∧ Blank t ∧ EndsWithLetterCommand init

end LatexAst.Ast1
