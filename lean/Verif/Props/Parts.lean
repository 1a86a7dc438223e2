import Verif.Model.Parts
import Verif.Props.Conversion
import Verif.Props.MathsRule
import Verif.Props.BackRule
import Verif.Props.Environments

/-!
# Properties C62, C63: converting single parts; pushing parts
-/

namespace LatexAst.Ast2
open Ast1 (Opened Matched NumberedInOrder)
open Spec

/-- C62, scopes to stage 2: the content is converted by the rule of C53 and the brackets are kept. -/
theorem C62_scope (cs : List Ast1.Chunk) (v : ScopeVariant) (hn : NumberedInOrder cs) (s : Scope) :
    Scope.tryFrom (.mk cs v) = .ok s ↔ ∃ inner, Converts cs (.ok inner) ∧ s = .mk inner v := by
  unfold Scope.tryFrom convScope
  constructor
  · intro h
    cases hr : Ast2.tryFrom cs with
    | error f => simp [hr] at h
    | ok x =>
      simp only [hr, Except.ok.injEq] at h
      exact ⟨x, (C53 cs hn x).1 hr, h.symm⟩
  · rintro ⟨inner, h, rfl⟩
    simp [(C53 cs hn inner).2 h]

/-- C62, scopes to stage 2, failure: the error is that of the content, its line counted inside the scope. -/
theorem C62_scope_error (cs : List Ast1.Chunk) (v : ScopeVariant) (hn : NumberedInOrder cs) (e : Error) :
    Scope.tryFrom (.mk cs v) = .error (.err e) ↔ Converts cs (.error e) := by
  unfold Scope.tryFrom convScope
  rw [← C53_error cs hn e]
  cases hr : Ast2.tryFrom cs with
  | error f => simp [hr]
  | ok x => simp [hr]

/-- C62, scopes to stage 2: the scope prints the same. -/
theorem C62_scope_text (sc : Ast1.Scope) (s : Scope) (h : Scope.tryFrom sc = .ok s) : s.display = sc.display := by
  obtain ⟨cs, v⟩ := sc
  unfold Scope.tryFrom convScope at h
  cases hr : Ast2.tryFrom cs with
  | error f => simp [hr] at h
  | ok x =>
    simp only [hr, Except.ok.injEq] at h
    subst h
    simp [Scope.display, Ast1.Scope.display, C21 cs x hr]

/-- C62, commands to stage 2: every argument is converted on its own, the first error counts; the label is kept,
whatever it is. -/
theorem C62_command (label : Str) (items : List ((Str × Ast1.Scope) × Outcome))
    (hn : ∀ x ∈ items, NumberedInOrder x.1.2.chunks) (h : ∀ x ∈ items, Converts x.1.2.chunks x.2) :
    Command.tryFrom (.mk label (items.map (·.1))) =
      match argOutcome items with
      | .ok args => .ok (.mk label args)
      | .error e => .error (.err e) := by
  unfold Command.tryFrom convCommand
  simp only
  rw [convArgs_items fun x hx => (h x hx).sound (hn x hx)]
  cases argOutcome items <;> rfl

/-- There always are such outcomes, so `C62_command` covers every command with arguments numbered in order. -/
theorem C62_command_covers (args : List (Str × Ast1.Scope)) : ∃ items : List ((Str × Ast1.Scope) × Outcome),
    items.map (·.1) = args ∧ ∀ x ∈ items, Converts x.1.2.chunks x.2 :=
  items_total fun x _ => converts_total x.2.chunks

/-- C62, part and whole: a document that is just a scope. -/
theorem C62_scope_whole (l : Nat) (sc : Ast1.Scope) : tryFrom [.mk l (.scope sc)] =
    match Scope.tryFrom sc with
    | .ok s => .ok [.mk l (.scope s)]
    | .error (.err e) => .error (.err ⟨e.line + l, e.type⟩)
    | .error f => .error f := by
  rw [tryFrom_eq]
  simp only [convWith, run, step, State.init, List.isEmpty_nil, if_true, Scope.tryFrom]
  rcases convScope tryFrom sc with (e | _ | _) | s <;> simp [addLine, finish, State.pushChunks]

/-- C62, part and whole: a document that is just a command, not `\begin` or `\end`. -/
theorem C62_command_whole (l : Nat) (c : Ast1.Command) (h1 : c.label ≠ chars!"begin") (h2 : c.label ≠ chars!"end") :
    tryFrom [.mk l (.command c)] =
    match Command.tryFrom c with
    | .ok c' => .ok [.mk l (.command c')]
    | .error f => .error f := by
  rw [tryFrom_eq]
  simp only [convWith, run, step, State.init, List.isEmpty_nil, if_true, Command.tryFrom, h1, h2, or_self, not_false_eq_true]
  rcases convCommand tryFrom c with f | c' <;> simp [finish, State.pushChunks]

/-- C62, commands to stage 2: the command prints the same. -/
theorem C62_command_text (c : Ast1.Command) (c' : Command) (h : Command.tryFrom c = .ok c') :
    c'.display = c.display := by
  obtain ⟨label, args⟩ := c
  unfold Command.tryFrom convCommand at h
  simp only at h
  have key : ∀ (args : List (Str × Ast1.Scope)) args', convArgs tryFrom args = .ok args' →
      displayArgs args' = Ast1.displayArgs args := by
    intro args
    induction args with
    | nil => intro args' h; simp [convArgs] at h; subst h; rfl
    | cons x r ih =>
      obtain ⟨p, sc⟩ := x
      intro args' h
      simp only [convArgs] at h
      cases hs : convScope tryFrom sc with
      | error f => simp [hs] at h
      | ok s =>
        cases hr : convArgs tryFrom r with
        | error f => simp [hs, hr] at h
        | ok r' =>
          simp only [hs, hr, Except.ok.injEq] at h
          subst h
          simp [displayArgs, Ast1.displayArgs, ih _ hr, C62_scope_text sc s hs]
  cases ha : convArgs tryFrom args with
  | error f => simp [ha] at h
  | ok args' =>
    simp only [ha, Except.ok.injEq] at h
    subst h
    simp [Command.display, Ast1.Command.display, key _ _ ha]

/-- A command that `Document::try_from` would refuse converts on its own. -/
example : Command.tryFrom (.mk chars!"end" [([], .mk [.mk 1 (.text chars!"a")] .curly)]) =
    .ok (.mk chars!"end" [([], .mk [.mk 1 (.text chars!"a")] .curly)]) ∧
    Scope.tryFrom (.mk [.mk 1 (.text chars!"x\n"), .mk 2 (.command (.mk chars!"end" []))] .square) =
      .error (.err ⟨2, .noEnvironmentLabel⟩) := by decide +kernel

/-! ### back to stage 1 -/

/-- C62, scopes to stage 1: the content unfolds by the rule of C60 (texts are not put together), and the brackets are
kept. -/
theorem C62_scope_back (cs : List Chunk) (v : ScopeVariant) (s : Ast1.Scope) :
    Ast1.Scope.ofAst2 (.mk cs v) = .ok s ↔ ∃ inner, Unfolds cs inner ∧ s = .mk inner v := by
  unfold Ast1.Scope.ofAst2
  simp only [intoScope]
  constructor
  · intro h
    rcases rule2 0 cs with ⟨xs, h1, h2⟩ | h1
    · rw [map_shift2_zero] at h1 h2
      rw [h1] at h
      exact ⟨xs, h2, by simpa using h.symm⟩
    · rw [map_shift2_zero] at h1
      rw [h1] at h; cases h
  · rintro ⟨inner, h, rfl⟩
    rw [unfolds_into h]

/-- C62, scopes to stage 1: it panics when the content does not unfold, and does nothing else. -/
theorem C62_scope_back_panics (cs : List Chunk) (v : ScopeVariant) :
    Ast1.Scope.ofAst2 (.mk cs v) = .error .panic ↔ ¬ ∃ inner, Unfolds cs inner := by
  unfold Ast1.Scope.ofAst2
  simp only [intoScope]
  rcases rule2 0 cs with ⟨xs, h1, h2⟩ | h1
  · rw [map_shift2_zero] at h1 h2
    simp only [h1, reduceCtorEq, false_iff, Classical.not_not]
    exact ⟨xs, h2⟩
  · rw [map_shift2_zero] at h1
    simp only [h1, true_iff]
    rintro ⟨inner, h⟩
    rw [unfolds_into h] at h1; cases h1

/-- C62, commands to stage 1. -/
theorem C62_command_back (c : Command) (d : Ast1.Command) : Ast1.Command.ofAst2 c = .ok d ↔
    ∃ items : List ((Str × Scope) × List Ast1.Chunk), c.arguments = items.map (·.1) ∧
      (∀ x ∈ items, Unfolds x.1.2.chunks x.2) ∧ d = .mk c.label (withInner1 items) := by
  obtain ⟨label, args⟩ := c
  unfold Ast1.Command.ofAst2
  simp only [intoCommand, Command.arguments, Command.label]
  have into : ∀ items : List ((Str × Scope) × List Ast1.Chunk), (∀ x ∈ items, Unfolds x.1.2.chunks x.2) →
      intoArgs (items.map (·.1)) = .ok (withInner1 items) := by
    intro items h
    have := unfolds_into (Unfolds.command (l := 0) (label := []) h .nil)
    simp only [intoChunks, intoVariant, intoCommand] at this
    cases ha : intoArgs (items.map (·.1)) with
    | error f => simp [ha] at this
    | ok x => simpa [ha] using this
  constructor
  · intro h
    rcases rule_args2 args with ⟨items, h1, h2, h3⟩ | h1
    · subst h2
      rw [into items h3] at h
      exact ⟨items, rfl, h3, by simpa using h.symm⟩
    · rw [h1] at h; cases h
  · rintro ⟨items, rfl, h, rfl⟩
    rw [into items h]

/-- A scope with an environment. -/
example : Ast1.Scope.ofAst2 (.mk [.mk 2 (.environment (.mk chars!"a" [] [] [] []))] .round) =
    .ok (.mk [.mk 2 (.command (.mk chars!"begin" [([], .mk [.mk 1 (.text chars!"a")] .curly)])),
      .mk 2 (.command (.mk chars!"end" [([], .mk [.mk 1 (.text chars!"a")] .curly)]))] .round) := by decide +kernel

end LatexAst.Ast2

namespace LatexAst.Ast3

/-- C62, scopes to stage 3: the content is converted by the rule of C55 and split into paragraphs; the brackets are
kept; failures are those of the content. -/
theorem C62_scope (cs : List Ast2.Chunk) (v : ScopeVariant) (o : Outcome) (h : Yields 0 cs o) :
    Scope.tryFrom (.mk cs v) =
      match o with
      | .ok raw => .ok (.mk (paragraphs raw) v)
      | .error f => .error f := by
  unfold Scope.tryFrom tryScope
  simp only
  cases o with
  | ok raw => rw [(C55_ok cs _).2 ⟨raw, h, rfl⟩]; simp [paragraphs_idem]
  | error f => rw [(C55_error cs f).2 h]

/-- C62, commands to stage 3: every argument is converted on its own; the first failure counts; the label is kept,
whatever it is. -/
theorem C62_command (label : Str) (items : List ((Str × Ast2.Scope) × Outcome))
    (h : ∀ x ∈ items, Yields 0 x.1.2.chunks x.2) : Command.tryFrom (.mk label (items.map (·.1))) =
      match argOutcome items with
      | .ok args => .ok (.mk label args)
      | .error f => .error f := by
  unfold Command.tryFrom tryCommand
  simp only
  have key : tryArgs mathsFromChunks (items.map (·.1)) = argOutcome items := by
    induction items with
    | nil => rfl
    | cons x r ih =>
      obtain ⟨⟨p, ⟨cs, v⟩⟩, o⟩ := x
      have h1 := C62_scope cs v o (h _ (List.mem_cons_self ..))
      unfold Scope.tryFrom at h1
      simp only [List.map_cons, tryArgs, argOutcome, h1, ih fun x hx => h x (List.mem_cons_of_mem _ hx)]
      cases o with
      | ok raw => simp only [Ast2.Scope.variant]; cases argOutcome r <;> rfl
      | error f => rfl
  rw [key]
  cases argOutcome items <;> rfl

/-- There always are such outcomes, so `C62_command` covers every command, and `C62_environment` every environment. -/
theorem C62_covers (args : List (Str × Ast2.Scope)) : ∃ items : List ((Str × Ast2.Scope) × Outcome),
    items.map (·.1) = args ∧ ∀ x ∈ items, Yields 0 x.1.2.chunks x.2 :=
  yield_items fun x _ => yields_total 0 x.2.chunks

/-- C62, environments to stage 3: arguments first, then the content; the label, whatever it is, and the strings before
the labels are kept. -/
theorem C62_environment (label pb pe : Str) (items : List ((Str × Ast2.Scope) × Outcome)) (body : List Ast2.Chunk)
    (o : Outcome) (h : ∀ x ∈ items, Yields 0 x.1.2.chunks x.2) (hb : Yields 0 body o) :
    Environment.tryFrom (.mk label (items.map (·.1)) body pb pe) =
      match argOutcome items, o with
      | .error f, _ => .error f
      | .ok _, .error f => .error f
      | .ok args, .ok raw => .ok (.mk label args (paragraphs raw) pb pe) := by
  have h1 := C62_command label items h
  unfold Command.tryFrom tryCommand at h1
  unfold Environment.tryFrom tryEnvironment
  simp only at h1 ⊢
  cases ha : tryArgs mathsFromChunks (items.map (·.1)) with
  | error f =>
    rw [ha] at h1
    cases hb : argOutcome items with
    | error g => rw [hb] at h1; simpa using h1
    | ok _ => rw [hb] at h1; cases h1
  | ok args =>
    rw [ha] at h1
    cases hc : argOutcome items with
    | error g => rw [hc] at h1; cases h1
    | ok args' =>
      rw [hc] at h1
      simp only [Except.ok.injEq, Command.mk.injEq, true_and] at h1
      subst h1
      cases o with
      | ok raw => simp [(C55_ok body _).2 ⟨raw, hb, rfl⟩, paragraphs_idem]
      | error f => simp [(C55_error body f).2 hb]

example : Command.tryFrom (.mk chars!"(" [([], .mk [.mk 1 (.text chars!"a$b$")] .curly)]) =
    .ok (.mk chars!"(" [([], .mk [.mk 1 (.text chars!"a"),
      .mk 1 (.mathsBlock (.mk .dollars .inline [.mk 1 (.text chars!"b")]))] .curly)]) ∧
    Environment.tryFrom (.mk chars!"document" [] [.mk 3 (.command (.mk chars!")" []))] [] []) =
      .error (.err ⟨3, .unexpectedMathsEnd⟩) := by decide +kernel

/-! ### back to stage 2 -/

/-- C62, scopes to stage 2. -/
theorem C62_scope_back (cs : List Chunk) (v : ScopeVariant) (s : Ast2.Scope) :
    Ast2.Scope.ofAst3 (.mk cs v) = .ok s ↔ ∃ inner, Unfolds cs inner ∧ s = .mk inner v := by
  unfold Ast2.Scope.ofAst3
  simp only [intoScope]
  constructor
  · intro h
    cases hr : intoChunks cs with
    | error f => simp [hr] at h
    | ok x => exact ⟨x, (C61_chunks cs x).1 hr, by simpa [hr] using h.symm⟩
  · rintro ⟨inner, h, rfl⟩
    rw [(C61_chunks cs inner).2 h]

/-- The arguments convert one by one. -/
theorem intoArgs_iff (args : List (Str × Scope)) (out : List (Str × Ast2.Scope)) : intoArgs args = .ok out ↔
    ∃ items : List ((Str × Scope) × List Ast2.Chunk), args = items.map (·.1) ∧
      (∀ x ∈ items, Unfolds x.1.2.chunks x.2) ∧ out = withInner2 items := by
  constructor
  · intro h
    obtain ⟨items, h1, h2, h3⟩ := rule_args3 args out h
    exact ⟨items, h2, h3, h1⟩
  · rintro ⟨items, rfl, h, rfl⟩
    exact intoArgs_items items fun x hx => unfolds_into (h x hx)

/-- C62, commands to stage 2. -/
theorem C62_command_back (label : Str) (args : List (Str × Scope)) (d : Ast2.Command) :
    Ast2.Command.ofAst3 (.mk label args) = .ok d ↔
    ∃ items : List ((Str × Scope) × List Ast2.Chunk), args = items.map (·.1) ∧
      (∀ x ∈ items, Unfolds x.1.2.chunks x.2) ∧ d = .mk label (withInner2 items) := by
  unfold Ast2.Command.ofAst3
  simp only [intoCommand]
  constructor
  · intro h
    cases ha : intoArgs args with
    | error f => simp [ha] at h
    | ok out =>
      obtain ⟨items, h1, h2, rfl⟩ := (intoArgs_iff args out).1 ha
      exact ⟨items, h1, h2, by simpa [ha] using h.symm⟩
  · rintro ⟨items, h1, h2, rfl⟩
    rw [(intoArgs_iff args _).2 ⟨items, h1, h2, rfl⟩]

/-- C62, environments to stage 2. -/
theorem C62_environment_back (label pb pe : Str) (args : List (Str × Scope)) (content : List Chunk)
    (d : Ast2.Environment) : Ast2.Environment.ofAst3 (.mk label args content pb pe) = .ok d ↔
    ∃ (items : List ((Str × Scope) × List Ast2.Chunk)) (content' : List Ast2.Chunk), args = items.map (·.1) ∧
      (∀ x ∈ items, Unfolds x.1.2.chunks x.2) ∧ Unfolds content content' ∧
      d = .mk label (withInner2 items) content' pb pe := by
  unfold Ast2.Environment.ofAst3
  simp only [intoEnvironment]
  constructor
  · intro h
    cases ha : intoArgs args with
    | error f => simp [ha] at h
    | ok out =>
      cases hc : intoChunks content with
      | error f => simp [ha, hc] at h
      | ok content' =>
        obtain ⟨items, h1, h2, rfl⟩ := (intoArgs_iff args out).1 ha
        exact ⟨items, content', h1, h2, (C61_chunks _ _).1 hc, by simpa [ha, hc] using h.symm⟩
  · rintro ⟨items, content', h1, h2, h3, rfl⟩
    rw [(intoArgs_iff args _).2 ⟨items, h1, h2, rfl⟩, (C61_chunks _ _).2 h3]

/-- C62, maths blocks to stage 2: the content in its delimiters, numbered from line 1. -/
theorem C62_maths_back (v : MathsVariant) (t : MathsType) (content : List Chunk) (out : List Ast2.Chunk) :
    MathsBlock.intoChunks (.mk v t content) = .ok out ↔ ∃ content', Unfolds content content' ∧
      Delimited v t (1 + (displayChunks content).count '\n') content' out := by
  unfold MathsBlock.intoChunks
  simp only [intoMaths]
  have hl : linesSum content + 1 = 1 + (displayChunks content).count '\n' := by
    rw [linesSum_eq, newlines_eq_count]; omega
  rw [hl]
  constructor
  · intro h
    cases hc : intoChunks content with
    | error f => simp [hc] at h
    | ok content' =>
      exact ⟨content', (C61_chunks _ _).1 hc, (delimited_iff _ _ _ _ _).2 (by simpa [hc] using h)⟩
  · rintro ⟨content', h1, h2⟩
    rw [(C61_chunks _ _).2 h1]
    simp [(delimited_iff _ _ _ _ _).1 h2]

example : MathsBlock.intoChunks (.mk .brackets .outline [.mk 1 (.text chars!"x\ny")]) =
    .ok [.mk 1 (.command (.mk chars!"[" [])), .mk 1 (.text chars!"x\ny"), .mk 2 (.command (.mk chars!"]" []))] := by
  decide +kernel

end LatexAst.Ast3

namespace LatexAst.Ast1

/-- C63: pushing what turns into the chunks `cs` appends them; adjacent texts, also with the last chunk of the
document, are put together. -/
theorem C63 (d : Document) (cs : List Chunk) :
    d.pushIntoUnchecked (.ok cs) = .ok (d.dropLast ++ joinTexts (d.getLast?.toList ++ cs)) := by
  simp only [Document.pushIntoUnchecked, Except.ok.injEq]
  rcases List.eq_nil_or_concat d with rfl | ⟨a, ⟨l, v⟩, rfl⟩
  · simp [(foldl_push_join cs).2 [] (by simp)]
  · rw [List.concat_eq_append]
    cases v with
    | text t => simp [(foldl_push_join cs).1 a l t]
    | command c => rw [(foldl_push_join cs).2 _ (by simp)]; simp [joinTexts]
    | scope sc => rw [(foldl_push_join cs).2 _ (by simp)]; simp [joinTexts]

/-- C63: the text of what is pushed is appended to the text of the document. -/
theorem C63_text (d e : Document) (cs : List Chunk) (h : d.pushIntoUnchecked (.ok cs) = .ok e) :
    displayChunks e = displayChunks d ++ displayChunks cs := by
  simp only [Document.pushIntoUnchecked, Except.ok.injEq] at h
  subst h
  exact Ast2.foldl_push_display cs d

/-- Push what `c` turns into, if nothing has failed so far. -/
def Document.pushNext : Res Document → Ast2.Chunk → Res Document
  | .ok d, c => d.pushIntoUnchecked c.intoChunks
  | .error f, _ => .error f

/-- C63: pushing the chunks of a stage-2 document one by one is converting the document. -/
theorem C63_document (e : Ast2.Document) : Ast2.toAst1 e = e.foldl Document.pushNext (.ok []) := by
  have stuck : ∀ (e : List Ast2.Chunk) f, e.foldl Document.pushNext (.error f) = .error f := by
    intro e
    induction e with
    | nil => intro f; rfl
    | cons c e ih => intro f; exact ih f
  suffices ∀ d, Ast2.toAst1Loop e d = e.foldl Document.pushNext (.ok d) from this []
  induction e with
  | nil => intro d; rfl
  | cons c e ih =>
    obtain ⟨l, v⟩ := c
    intro d
    simp only [Ast2.toAst1Loop, List.foldl_cons, Document.pushNext, Ast2.Chunk.intoChunks, Ast2.Chunk.lineNo, Ast2.Chunk.variant]
    cases h : Ast2.intoVariant l v with
    | error f => simp [Document.pushIntoUnchecked, stuck]
    | ok xs => simpa [Document.pushIntoUnchecked] using ih _

example : Document.pushIntoUnchecked [.mk 1 (.text chars!"a")]
    (Ast2.Chunk.intoChunks (.mk 5 (.text chars!"b"))) = .ok [.mk 1 (.text chars!"ab")] := by decide +kernel

end LatexAst.Ast1
