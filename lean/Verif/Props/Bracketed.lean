import Verif.Proofs.Bracketed
import Verif.Props.Parts
import Verif.Props.Enclosed

/-!
# C105: a source in brackets is read on its own
-/

namespace LatexAst.Ast1
open Spec

/-- C105, stage 1, free brackets: the scope holds what the source gives on its own; an error is that of the source, kind and line. -/
theorem C105 (v : ScopeVariant) (s : Str) (hs : SelfContained s) (hb : Balanced v 0 s) : fromStr (inBrackets v s) =
    match fromStr s with
    | .ok d => .ok [.mk 1 (.scope (.mk d .curly))]
    | .error f => .error f := by
  have hc := self_clean s hs
  obtain ⟨o, ho⟩ := reads_total s hc 1
  rw [(reads_iff hc o).1 ho, (reads_iff (clean_inBrackets hc) _).1 (reads_inBrackets hs.2 hb ho)]
  cases o with
  | ok d => rfl
  | error e => simp [scopeOutcome, shifted, Outcome.toRes]

/-- C105, stage 1, arguments: every argument holds what its source gives on its own. -/
theorem C105_arguments (name : Str) (hn : LetterName name) (args : List (ScopeVariant × Str))
    (ha : ∀ x ∈ args, SelfContained x.2 ∧ WithoutBrackets x.1 x.2) (ds : List Document)
    (hd : args.map (fun x => fromStr x.2) = ds.map .ok) : fromStr (withArguments name args) =
      .ok [.mk 1 (.command (.mk name ((args.zip ds).map fun x => ([], .mk x.2 x.1.1))))] := by
  have hc : ∀ x ∈ args, Clean x.2 := fun x hx => self_clean _ (ha x hx).1
  have hw := written_arguments fun x hx => ⟨(ha x hx).1.2, (ha x hx).2⟩
  have hitems : ∀ {args : List (ScopeVariant × Str)} {ds : List Document}, (∀ x ∈ args, SelfContained x.2 ∧ WithoutBrackets x.1 x.2) →
      args.map (fun x => fromStr x.2) = ds.map .ok → ∃ items : List (WrittenArg × Outcome),
      items.map (·.1) = args.map (fun x => ⟨[], x.1, x.2⟩) ∧ (∀ x ∈ items, Reads 1 (dropBrackets x.1.kind x.1.content) x.2) ∧
      argOutcome items = .ok ((args.zip ds).map fun x => ([], .mk x.2 x.1.1)) := by
    intro args
    induction args with
    | nil => intro ds _ h; exact ⟨[], rfl, (fun x hx => by cases hx), by simp [argOutcome]⟩
    | cons x args ih =>
      intro ds hx h
      cases ds with
      | nil => simp at h
      | cons d ds =>
        simp only [List.map_cons, List.cons.injEq] at h
        obtain ⟨items, k1, k2, k3⟩ := ih (fun y hy => hx y (.tail _ hy)) h.2
        refine ⟨(⟨[], x.1, x.2⟩, .ok d) :: items, by simp [k1], ?_, by simp [argOutcome, k3]⟩
        intro y hy
        cases hy with
        | head =>
          obtain ⟨m1, m2⟩ := hx x (.head _)
          simp only
          rw [show dropBrackets x.1 x.2 = x.2 from m2]
          exact (reads_iff (self_clean _ m1) (.ok d)).2 h.1
        | tail _ hy => exact k2 y hy
  obtain ⟨items, k1, k2, k3⟩ := hitems ha hd
  rw [← k1] at hw
  have := Reads.lastCommand (l := 1) hn hw .nil k2
  rw [List.append_nil] at this
  rw [(reads_iff (clean_withArguments hn hc) _).1 this]
  simp [commandOutcome, k3, Outcome.after, Outcome.toRes]

/-- C105, stage 1, one argument: with its error, if there is one. -/
theorem C105_argument (name : Str) (hn : LetterName name) (v : ScopeVariant) (s : Str) (hs : SelfContained s) (hb : WithoutBrackets v s) :
    fromStr (withArguments name [(v, s)]) =
      match fromStr s with
      | .ok d => .ok [.mk 1 (.command (.mk name [([], .mk d v)]))]
      | .error f => .error f := by
  have hc := self_clean s hs
  obtain ⟨o, ho⟩ := reads_total s hc 1
  have hw := written_arguments (args := [(v, s)]) (fun x hx => by
    simp only [List.mem_singleton] at hx; subst hx; exact ⟨hs.2, hb⟩)
  have := Reads.lastCommand (l := 1) (items := [(⟨[], v, s⟩, o)]) hn hw .nil (fun x hx => by
    simp only [List.mem_singleton] at hx; subst hx
    simp only
    rw [show dropBrackets v s = s from hb]
    exact ho)
  rw [List.append_nil] at this
  rw [(reads_iff hc o).1 ho, (reads_iff (clean_withArguments hn (fun x hx => by
    simp only [List.mem_singleton] at hx; subst hx; exact hc)) _).1 this]
  cases o with
  | ok d => rfl
  | error e => simp [commandOutcome, argOutcome, shifted, Outcome.toRes]

/-- C105 on a source with an error, in curly brackets, on `a{b}` in curly brackets, and as an argument in square brackets. -/
theorem C105_example : Balanced .curly 0 chars!"a\\{[b" ∧ SelfContained chars!"a\\{[b" ∧
    fromStr chars!"a\\{[b" = fail 1 (.unclosedScope .square) ∧ fromStr chars!"{a\\{[b}" = fail 1 (.unclosedScope .square) ∧
    inBrackets .curly chars!"a\\{[b" = chars!"{a\\{[b}" ∧
    Balanced .curly 0 chars!"a{b}" ∧ fromStr chars!"{a{b}}" = .ok [.mk 1 (.scope (.mk [.mk 1 (.text chars!"a"),
      .mk 1 (.scope (.mk [.mk 1 (.text chars!"b")] .curly))] .curly))] ∧
    WithoutBrackets .square chars!"a{b}" ∧ withArguments chars!"c" [(.square, chars!"a{b}")] = chars!"\\c[a{b}]" ∧
    fromStr chars!"\\c[a{b}]" = .ok [.mk 1 (.command (.mk chars!"c" [([], .mk [.mk 1 (.text chars!"a"),
      .mk 1 (.scope (.mk [.mk 1 (.text chars!"b")] .curly))] .square)]))] :=
  ⟨by simp [Balanced, ScopeVariant.opening, ScopeVariant.closing], ⟨by decide, by simp [NoDangling]⟩, by decide +kernel, by decide +kernel, rfl,
    by simp [Balanced, ScopeVariant.opening, ScopeVariant.closing], by decide +kernel,
    by simp [WithoutBrackets, dropBrackets, ScopeVariant.opening, ScopeVariant.closing], rfl, by decide +kernel⟩

/-- The conditions are needed: brackets of the same kind that do not match end the scope, and in an argument those that match are
dropped. -/
theorem C105_needed : fromStr chars!"a}{b" = fail 1 (.unclosedScope .curly) ∧
    fromStr (inBrackets .curly chars!"a}{b") = .ok [.mk 1 (.scope (.mk [.mk 1 (.text chars!"a")] .curly)),
      .mk 1 (.scope (.mk [.mk 1 (.text chars!"b")] .curly))] ∧
    fromStr (withArguments chars!"c" [(.curly, chars!"a{b}")]) =
      .ok [.mk 1 (.command (.mk chars!"c" [([], .mk [.mk 1 (.text chars!"ab")] .curly)]))] :=
  ⟨by decide +kernel, by decide +kernel, by decide +kernel⟩

end LatexAst.Ast1

namespace LatexAst.Ast2
open Spec
open LatexAst.Ast1 (LetterName)

/-- C105, stage 2, free brackets. An error of stage 1 is reported as it is, an error about environments one line too late. -/
theorem C105 (v : ScopeVariant) (s : Str) (hs : SelfContained s) (hb : Balanced v 0 s) : fromStr (inBrackets v s) =
    match fromStr s with
    | .ok d => .ok [.mk 1 (.scope (.mk d .curly))]
    | .error (.err e) => .error (.err (if Ast1.fromStr s = .error (.err e) then e else ⟨e.line + 1, e.type⟩))
    | .error f => .error f := by
  unfold fromStr
  rw [Ast1.C105 v s hs hb]
  cases h : Ast1.fromStr s with
  | error f => cases f <;> simp
  | ok d =>
    simp only
    rw [C62_scope_whole]
    unfold Scope.tryFrom convScope
    simp only
    rcases tryFrom d with (e | _ | _) | x <;> simp

/-- C105, stage 2, one argument of a command that is not `\begin` or `\end`: errors are reported as they are. -/
theorem C105_argument (name : Str) (hn : LetterName name) (h1 : name ≠ chars!"begin") (h2 : name ≠ chars!"end") (v : ScopeVariant)
    (s : Str) (hs : SelfContained s) (hb : WithoutBrackets v s) : fromStr (withArguments name [(v, s)]) =
      match fromStr s with
      | .ok d => .ok [.mk 1 (.command (.mk name [([], .mk d v)]))]
      | .error f => .error f := by
  unfold fromStr
  rw [Ast1.C105_argument name hn v s hs hb]
  cases h : Ast1.fromStr s with
  | error f => rfl
  | ok d =>
    simp only
    rw [C62_command_whole _ _ (by simpa [Ast1.Command.label] using h1) (by simpa [Ast1.Command.label] using h2)]
    unfold Command.tryFrom convCommand
    simp only [convArgs, convScope]
    cases tryFrom d <;> rfl

/-- C105 on an unclosed `\begin{a}`: in brackets, one line too late; in an argument, right. -/
theorem C105_example : fromStr chars!"\\begin{a}" = fail 1 (.unclosedEnvironment chars!"a") ∧
    fromStr (inBrackets .square chars!"\\begin{a}") = fail 2 (.unclosedEnvironment chars!"a") ∧
    fromStr (withArguments chars!"b" [(.square, chars!"\\begin{a}")]) = fail 1 (.unclosedEnvironment chars!"a") ∧
    fromStr (inBrackets .square chars!"\\begin{a}x\\end{a}") = .ok [.mk 1 (.scope (.mk
      [.mk 1 (.environment (.mk chars!"a" [] [.mk 1 (.text chars!"x")] [] []))] .curly))] :=
  ⟨by decide +kernel, by decide +kernel, by decide +kernel, by decide +kernel⟩

end LatexAst.Ast2

namespace LatexAst.Ast3
open Spec
open LatexAst.Ast1 (LetterName)

theorem isBody_of {e : Ast2.Document}
    (h : ∀ l args content pb pe, .mk l (.environment (.mk chars!"document" args content pb pe)) ∉ e) : ∀ c ∈ e, isBody c = false := by
  intro c hc
  obtain ⟨l, v⟩ := c
  cases v with
  | environment en =>
    obtain ⟨label, args, content, pb, pe⟩ := en
    by_cases hl : label = chars!"document"
    · subst hl; exact absurd hc (h l args content pb pe)
    · simp [isBody, hl]
  | _ => rfl

theorem tryFrom_simple {e : Ast2.Document} (hb : ∀ c ∈ e, isBody c = false)
    (hc : ∀ l args, .mk l (.command (.mk chars!"documentclass" args)) ∉ e) : tryFrom e =
      match mathsFromChunks e with
      | .ok p => .ok { Document.default with preamable := p }
      | .error f => .error f := by
  have run : ∀ (e : Ast2.Document) (s : DState), s.inPreamable = true → (∀ c ∈ e, isBody c = false) →
      (∀ l args, .mk l (.command (.mk chars!"documentclass" args)) ∉ e) →
      runDocument e s = .ok { s with preamable := s.preamable ++ e } := by
    intro e
    induction e with
    | nil => intro s _ _ _; simp [runDocument]
    | cons c e ih =>
      intro s hs h1 h2
      obtain ⟨l, v⟩ := c
      have hstep : stepDocument s (.mk l v) = .ok { s with preamable := s.preamable ++ [.mk l v] } := by
        cases v with
        | environment en =>
          obtain ⟨label, args, content, pb, pe⟩ := en
          have := h1 _ (.head _)
          by_cases hl : label = chars!"document"
          · subst hl; simp [isBody] at this
          · simp [stepDocument, Ast2.Environment.label, hl, DState.push, hs]
        | command cmd =>
          obtain ⟨label, args⟩ := cmd
          by_cases hl : label = chars!"documentclass"
          · subst hl; exact absurd (.head _) (h2 l args)
          · simp [stepDocument, Ast2.Command.label, hl, DState.push, hs]
        | text t => simp [stepDocument, DState.push, hs]
        | scope sc => simp [stepDocument, DState.push, hs]
      simp only [runDocument, hstep]
      have := ih { s with preamable := s.preamable ++ [.mk l v] } hs (fun c hc => h1 c (.tail _ hc)) (fun l args hm => h2 l args (.tail _ hm))
      rw [this]
      simp
  unfold tryFrom
  rw [run e DState.init rfl hb hc]
  simp only [DState.init, List.nil_append, maths_nil]
  cases h : mathsFromChunks e with
  | error f => rfl
  | ok p => simp [paragraphs_maths h, paragraphs, Document.default]

theorem maths_scope (l : Nat) (e : List Ast2.Chunk) (v : ScopeVariant) : mathsFromChunks [.mk l (.scope (.mk e v))] =
    match mathsFromChunks e with
    | .ok p => .ok [.mk l (.scope (.mk p v))]
    | .error f => .error f := by
  rw [mathsFromChunks_eq]
  cases h : mathsFromChunks e with
  | error f =>
    simp [mathsLevel, mathsOutFrom, runMaths, stepMaths, MState.init, tryScope, h]
  | ok p =>
    simp [mathsLevel, mathsOutFrom, runMaths, stepMaths, MState.init, tryScope, h, finishMaths, paragraphs, paragraphChunk, paragraphs_maths h]

theorem maths_argument (l : Nat) (name : Str) (hn : LetterName name) (e : List Ast2.Chunk) (v : ScopeVariant) :
    mathsFromChunks [.mk l (.command (.mk name [([], .mk e v)]))] =
    match mathsFromChunks e with
    | .ok p => .ok [.mk l (.command (.mk name [([], .mk p v)]))]
    | .error f => .error f := by
  have hl : ∀ c, isAsciiAlphabetic c = false → name ≠ [c] := by
    rintro c hc rfl
    obtain ⟨c', r, h1, h2, _⟩ := hn
    injection h1 with h1 _
    subst h1
    rw [hc] at h2; cases h2
  have h1 := hl '(' (by decide)
  have h2 := hl ')' (by decide)
  have h3 := hl '[' (by decide)
  have h4 := hl ']' (by decide)
  rw [mathsFromChunks_eq]
  cases h : mathsFromChunks e with
  | error f =>
    simp [mathsLevel, mathsOutFrom, runMaths, stepMaths, stepMathsCommand, Ast2.Command.label, MState.init, tryCommand, tryArgs, tryScope, h, h1, h2, h3, h4]
  | ok p =>
    simp [mathsLevel, mathsOutFrom, runMaths, stepMaths, stepMathsCommand, Ast2.Command.label, MState.init, tryCommand, tryArgs, tryScope, h, h1, h2, h3, h4,
      finishMaths, paragraphs, paragraphChunk, paragraphs_maths h]

/-- C105, stage 3, free brackets: for a source without document environment and document class, the scope holds what is otherwise the
preamble; errors and panics are those of the source. -/
theorem C105 (v : ScopeVariant) (s : Str) (hs : SelfContained s) (hb : Balanced v 0 s) (e : Ast2.Document) (he : Ast2.fromStr s = .ok e)
    (h1 : ∀ l args content pb pe, .mk l (.environment (.mk chars!"document" args content pb pe)) ∉ e)
    (h2 : ∀ l args, .mk l (.command (.mk chars!"documentclass" args)) ∉ e) : fromStr (inBrackets v s) =
      match fromStr s with
      | .ok d => .ok { Document.default with preamable := [.mk 1 (.scope (.mk d.preamable .curly))] }
      | .error f => .error f := by
  unfold fromStr
  rw [Ast2.C105 v s hs hb, he]
  simp only
  rw [tryFrom_simple (isBody_of h1) h2, tryFrom_simple (by simp [isBody]) (by simp), maths_scope]
  cases mathsFromChunks e <;> rfl

/-- C105, stage 3, arguments. -/
theorem C105_argument (name : Str) (hn : LetterName name) (n1 : name ≠ chars!"begin") (n2 : name ≠ chars!"end")
    (n3 : name ≠ chars!"documentclass") (v : ScopeVariant)
    (s : Str) (hs : SelfContained s) (hb : WithoutBrackets v s) (e : Ast2.Document) (he : Ast2.fromStr s = .ok e)
    (h1 : ∀ l args content pb pe, .mk l (.environment (.mk chars!"document" args content pb pe)) ∉ e)
    (h2 : ∀ l args, .mk l (.command (.mk chars!"documentclass" args)) ∉ e) : fromStr (withArguments name [(v, s)]) =
      match fromStr s with
      | .ok d => .ok { Document.default with preamable := [.mk 1 (.command (.mk name [([], .mk d.preamable v)]))] }
      | .error f => .error f := by
  unfold fromStr
  rw [Ast2.C105_argument name hn n1 n2 v s hs hb, he]
  simp only
  rw [tryFrom_simple (isBody_of h1) h2, tryFrom_simple (by simp [isBody]) (by simp [Ne.symm n3]), maths_argument _ _ hn]
  cases mathsFromChunks e <;> rfl

/-- C105 on `$a$` and on `$a`. -/
theorem C105_example : fromStr chars!"$a$" = .ok { Document.default with preamable :=
      [.mk 1 (.mathsBlock (.mk .dollars .inline [.mk 1 (.text chars!"a")]))] } ∧
    fromStr (inBrackets .curly chars!"$a$") = .ok { Document.default with preamable :=
      [.mk 1 (.scope (.mk [.mk 1 (.mathsBlock (.mk .dollars .inline [.mk 1 (.text chars!"a")]))] .curly))] } ∧
    fromStr (withArguments chars!"b" [(.square, chars!"$a$")]) = .ok { Document.default with preamable :=
      [.mk 1 (.command (.mk chars!"b" [([], .mk [.mk 1 (.mathsBlock (.mk .dollars .inline [.mk 1 (.text chars!"a")]))] .square)]))] } ∧
    fromStr chars!"$a" = .error (.err ⟨0, .unclosedMaths⟩) ∧ fromStr (inBrackets .curly chars!"$a") = .error (.err ⟨0, .unclosedMaths⟩) :=
  ⟨by decide +kernel, by decide +kernel, by decide +kernel, by decide +kernel, by decide +kernel⟩

end LatexAst.Ast3
