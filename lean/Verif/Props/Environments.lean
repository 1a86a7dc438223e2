import Verif.Proofs.Back2
import Verif.Props.RoundTrip1
import Verif.Model.Eq2

/-!
# Stage 2: environments (C21–C30, C47)

Stated with `Verif.Spec.Nesting` (which `\begin`s and `\end`s match), `Verif.Spec.Source` and
`Verif.Spec.Tree`.
-/

namespace LatexAst.Ast2
open Spec
open LatexAst.Ast1 (Matched Checked Misnested NumberedInOrder NoDelimiters SaneAll)

/-- The stage-1 document of `Fidelity.basicSrc2`. -/
def basicSource2 : Ast1.Document :=
  [.mk 1 (.command (.mk chars!"usepackage" [([], .mk [.mk 1 (.text chars!"amsmath")] .curly)])),
   .mk 1 (.text chars!"\n\n"),
   .mk 3 (.command (.mk chars!"begin" [([], .mk [.mk 1 (.text chars!"document")] .curly)])),
   .mk 3 (.text chars!"\n    Hello\n    "),
   .mk 5 (.command (.mk chars!"begin" [([], .mk [.mk 1 (.text chars!"itemize")] .curly)])),
   .mk 5 (.text chars!"\n        "), .mk 6 (.command (.mk chars!"item" [])),
   .mk 6 (.text chars!" test\n    "),
   .mk 7 (.command (.mk chars!"end" [([], .mk [.mk 1 (.text chars!"itemize")] .curly)])),
   .mk 7 (.text chars!"\n"),
   .mk 8 (.command (.mk chars!"end" [([], .mk [.mk 1 (.text chars!"document")] .curly)]))]

theorem basicSource2_parsed : Ast1.fromStr Fidelity.basicSrc2 = .ok basicSource2 := by decide +kernel
theorem basicSource2_converts : tryFrom basicSource2 = .ok Fidelity.basicAst2 := by decide +kernel

/-! ### C21, C22 -/

/-- C21: converting to stage 2 does not change the printed text, whatever the document. -/
theorem C21 (d : Ast1.Document) (e : Document) (h : tryFrom d = .ok e) :
    displayChunks e = Ast1.displayChunks d := display_tryFrom h

/-- C21 for parsing: the stage-2 document prints as the stage-1 document of the same source. -/
theorem C21_source (s : Str) (e : Document) (h : fromStr s = .ok e) :
    ∃ d, Ast1.fromStr s = .ok d ∧ displayChunks e = Ast1.displayChunks d := by
  unfold fromStr at h
  cases hd : Ast1.fromStr s with
  | error f => rw [hd] at h; cases h
  | ok d => rw [hd] at h; exact ⟨d, rfl, C21 d e h⟩

example : tryFrom basicSource2 = .ok Fidelity.basicAst2 := basicSource2_converts

/-- C22: no command labelled `begin` or `end` anywhere in a converted document. -/
theorem C22 (d : Ast1.Document) (e : Document) (h : tryFrom d = .ok e) (label : Str)
    (args : List (Str × Scope)) (hw : Within e (.command (.mk label args))) :
    label ≠ chars!"begin" ∧ label ≠ chars!"end" :=
  (allChunks_iff _).1 (notDelim_tryFrom h) _ hw

example : Within Fidelity.basicAst2 (.command (.mk chars!"item" [])) :=
  .envContent (.tail _ (.tail _ (.head _))) (.envContent (.tail _ (.head _)) (.here (.tail _ (.head _))))

/-! ### C23, C24 -/

/-- C23: the conversion succeeds exactly on the documents in which, at every level, the `\begin`s and
`\end`s match. (Label arguments themselves are compared, not looked into.) -/
theorem C23 (d : Ast1.Document) (hn : NumberedInOrder d) :
    (∃ e, tryFrom d = .ok e) ↔ ∀ lv, Checked d lv → Matched lv := by
  constructor
  · rintro ⟨e, he⟩ lv hl
    exact (Ast1.opened_iff_matched lv).1 (ok_opened he lv hl)
  · intro h
    cases hr : tryFrom d with
    | ok e => exact ⟨e, rfl⟩
    | error f =>
      exfalso
      cases f with
      | err e =>
        obtain ⟨lv, hl, hm⟩ := error_misnested hr
        exact Misnested.not_opened hm ((Ast1.opened_iff_matched lv).2 (h lv hl))
      | panic => exact tryFrom_no_panic hn hr
      | fuel => exact tryFrom_fuel d hr

/-- Without the hypothesis on line numbers, for the direction from success. -/
theorem C23_matched (d : Ast1.Document) (e : Document) (h : tryFrom d = .ok e) (lv : List Ast1.Chunk)
    (hl : Checked d lv) : Matched lv := (Ast1.opened_iff_matched lv).1 (ok_opened h lv hl)

/-- C23 for source text. -/
theorem C23_source (s : Str) (d : Ast1.Document) (h : Ast1.fromStr s = .ok d) :
    (∃ e, fromStr s = .ok e) ↔ ∀ lv, Checked d lv → Matched lv := by
  rw [← C23 d (Ast1.sane_numbered (Ast1.sane_parsed h))]
  simp [fromStr, h]

/-- C23, the two descriptions of nesting agree: matching by grammar, and reading with a stack of open
labels. -/
theorem C23_nesting (cs : List Ast1.Chunk) : Ast1.Opened cs [] ↔ Matched cs := Ast1.opened_iff_matched cs

/-- A document with nested environments that match, one with environments that overlap. -/
example : (∃ e, fromStr Fidelity.basicSrc2 = .ok e) ∧
    ¬ ∃ e, fromStr chars!"\\begin{a}\\begin{b}\\end{a}\\end{b}" = .ok e := by
  refine ⟨⟨_, (by decide +kernel : fromStr Fidelity.basicSrc2 = .ok Fidelity.basicAst2)⟩, ?_⟩
  rintro ⟨e, he⟩
  have : fromStr chars!"\\begin{a}\\begin{b}\\end{a}\\end{b}" = .error (.err ⟨1, .unexpectedEnd chars!"a"⟩) := by
    decide +kernel
  rw [this] at he; cases he

/-- C24: every error names something that is wrong with the environments of some level. -/
theorem C24 (d : Ast1.Document) (e : Error) (h : tryFrom d = .error (.err e)) :
    ∃ lv, Checked d lv ∧ Misnested lv e.type := error_misnested h

/-- C24: hence no other error type occurs, and what is reported is really wrong. -/
theorem C24_types (d : Ast1.Document) (e : Error) (h : tryFrom d = .error (.err e)) :
    (e.type = .tooManyArgsEnd ∨ e.type = .noEnvironmentLabel ∨
      (∃ l, e.type = .unclosedEnvironment l) ∨ ∃ l, e.type = .unexpectedEnd l) ∧
    ∃ lv, Checked d lv ∧ ¬ Matched lv := by
  obtain ⟨lv, h1, h2⟩ := C24 d e h
  refine ⟨?_, lv, h1, fun hm => Misnested.not_opened h2 ((Ast1.opened_iff_matched lv).2 hm)⟩
  generalize e.type = t at h2
  cases h2 <;> simp

example : (∃ d, Ast1.fromStr chars!"a{\\begin{x}\n\\begin\n{}}" = .ok d ∧
    tryFrom d = .error (.err ⟨2, .unclosedEnvironment chars!"x"⟩)) ∧
    fromStr chars!"\\end{x}" = .error (.err ⟨1, .unexpectedEnd chars!"x"⟩) ∧
    fromStr chars!"\\begin{x}\\end{x}{y}" = .error (.err ⟨1, .tooManyArgsEnd⟩) ∧
    fromStr chars!"\\begin[x]" = .error (.err ⟨1, .noEnvironmentLabel⟩) :=
  ⟨⟨[.mk 1 (.text chars!"a"), .mk 1 (.scope (.mk [
      .mk 1 (.command (.mk chars!"begin" [([], .mk [.mk 1 (.text chars!"x")] .curly)])),
      .mk 1 (.text chars!"\n"),
      .mk 2 (.command (.mk chars!"begin" [(chars!"\n", .mk [] .curly)]))] .curly))],
    by decide +kernel, by decide +kernel⟩, by decide +kernel, by decide +kernel, by decide +kernel⟩

/-! ### C25 -/

theorem openers_le {s : Str} {d : Ast1.Document} (h : Ast1.fromStr s = .ok d) :
    openers (Ast1.displayChunks d) ≤ openers s := by
  have := ((Ast1.C01_partial s d h).1.countP_le (p := fun c => c == '{'))
  have key : ∀ s : Str, (s.map anyBracket).countP (fun c => c == '{') = openers s := by
    intro s
    rw [List.countP_map, openers]
    congr 1
    funext c
    simp only [Function.comp, anyBracket, List.mem_cons, List.not_mem_nil, or_false]
    rw [Bool.eq_iff_iff]
    by_cases h1 : c = '{' ∨ c = '[' ∨ c = '('
    · rw [if_pos h1]; simpa [or_assoc] using h1
    · rw [if_neg h1]
      have h1' := h1
      simp only [not_or] at h1'
      by_cases h2 : c = '}' ∨ c = ']' ∨ c = ')'
      · rw [if_pos h2]; simp [h1']
      · rw [if_neg h2]; simp [h1']
  rwa [key, key] at this

/-- C25: a rejected source gives an error line that is at least 1 and exceeds the number of lines by at
most the number of opening brackets of the source. Missing: that it never exceeds it; it does, by one
for each scope or environment around the error, see `C25_false`. -/
theorem C25_partial (s : Str) (e : Error) (h : fromStr s = .error (.err e)) :
    1 ≤ e.line ∧ e.line ≤ lineCount s + s.countP (fun c => c == '{' || c == '[' || c == '(') := by
  unfold fromStr at h
  cases hd : Ast1.fromStr s with
  | error f =>
    rw [hd] at h; injection h with h; subst h
    have := Ast1.C07 s e hd
    omega
  | ok d =>
    rw [hd] at h
    have h1 := error_line h (Ast1.sane_parsed hd)
    have h2 := openers_le hd
    have h3 := Ast1.newlines_fromStr hd
    rw [h3] at h1
    rw [newlines_eq_count] at h1
    have : openers s = s.countP (fun c => c == '{' || c == '[' || c == '(') := rfl
    rw [lineCount]
    omega

/-- C25 for problems at the top level (every scope and argument being in order): the line is in the
source, and it is the line of the offending command; for an unclosed environment, the line on which its
`\begin` ends. -/
theorem C25_top_partial (s : Str) (d : Ast1.Document) (e : Error) (hd : Ast1.fromStr s = .ok d)
    (h : fromStr s = .error (.err e)) (ht : ∀ lv, Checked d lv → lv ≠ d → Matched lv) :
    1 ≤ e.line ∧ e.line ≤ lineCount s ∧
    ∃ pre l label args post, d = pre ++ .mk l (.command (.mk label args)) :: post ∧
      (label = chars!"begin" ∨ label = chars!"end") ∧
      l = 1 + (Ast1.displayChunks pre).count '\n' ∧
      e.line = l + (match e.type with
        | .unclosedEnvironment _ => (Ast1.displayArgs args).count '\n'
        | _ => 0) := by
  have h' : tryFrom d = .error (.err e) := by simpa [fromStr, hd] using h
  obtain ⟨pre, l, label, args, post, hdd, hc⟩ := error_top h' ht
  have hs := Ast1.sane_parsed hd d .top pre _ post hdd
  have hlab : label = chars!"begin" ∨ label = chars!"end" := by
    rcases hc with ⟨_, _, h, _⟩ | ⟨_, h, _⟩
    · exact .inl h
    · exact h
  have hl : l = 1 + newlines (Ast1.displayChunks pre) := by
    refine hs.2.2 (by simp [Ast1.Chunk.variant]) ?_
    intro a ha
    simp only [Ast1.Chunk.variant, Ast1.ChunkVariant.command.injEq, Ast1.Command.mk.injEq] at ha
    rw [ha.1] at hlab
    revert hlab; decide
  have hline : e.line = l + (match e.type with
        | .unclosedEnvironment _ => (Ast1.displayArgs args).count '\n'
        | _ => 0) := by
    rcases hc with ⟨lab, h1, _, h3⟩ | ⟨h1, _, h3⟩
    · rw [h1, h3, newlines_eq_count]
    · rw [h3]; split
      · rename_i x hx; exact absurd hx (h1 _)
      · rfl
  have hn := Ast1.newlines_fromStr hd
  have hc2 : newlines (Ast1.displayChunks d) = newlines (Ast1.displayChunks pre) +
      (newlines (Ast1.Chunk.mk l (.command (.mk label args))).display + newlines (Ast1.displayChunks post)) := by
    rw [hdd]; simp [Ast1.displayChunks_append, Ast1.displayChunks_cons]
  have hc3 : newlines (Ast1.displayArgs args) ≤ newlines (Ast1.Chunk.mk l (.command (.mk label args))).display := by
    simp [Ast1.Chunk.display, Ast1.ChunkVariant.display, Ast1.Command.display, newlines_cons]
  refine ⟨by omega, ?_, pre, l, label, args, post, hdd, hlab, by rw [hl, newlines_eq_count], hline⟩
  have : e.line ≤ l + newlines (Ast1.displayArgs args) := by
    rw [hline, newlines_eq_count]; split <;> omega
  rw [lineCount, ← newlines_eq_count]
  omega

/-- C25 is false of the code: inside a scope the reported line is one too far, here beyond the end. -/
theorem C25_false : fromStr chars!"{\\end{a}}" = .error (.err ⟨2, .unexpectedEnd chars!"a"⟩) ∧
    lineCount chars!"{\\end{a}}" = 1 := by decide +kernel

example : fromStr chars!"a\n\\begin{x}[\n]" = .error (.err ⟨3, .unclosedEnvironment chars!"x"⟩) := by
  decide +kernel

/-! ### C26, C27 -/

/-- The label of an environment of a parsed document reads back as itself. -/
theorem label_reads {s : Str} {d lv : List Ast1.Chunk} {l : Nat} {label : Str} {args p lab} (h : Ast1.fromStr s = .ok d)
    (hl : Ast1.Level d lv) (hm : .mk l (.command (.mk label args)) ∈ lv) (hm' : (p, Ast1.Scope.mk lab .curly) ∈ args) :
    Ast1.fromStr (Ast1.displayChunks lab) = .ok lab := by
  have hno := (Ast1.allChunks_iff _).1 (Ast1.arg_noArg h hl hm hm')
  obtain ⟨a, ha⟩ := Ast1.level_parsed h (.arg hl hm hm')
  refine Ast1.C14_partial a lab ha ?_ ?_
  · intro label' args' p' inner hw hmm
    exact absurd rfl (hno _ hw p' inner .curly hmm)
  · intro inner sv hw t ht
    exact hno _ (within_trans hw ht)
where
  within_trans {d inner sv v} (h : Ast1.Within d (.scope (.mk inner sv))) (h' : Ast1.Within inner v) : Ast1.Within d v := by
    generalize hg : Ast1.ChunkVariant.scope (.mk inner sv) = g at h
    induction h with
    | here hm => subst hg; exact .scope hm h'
    | scope hm _ ih => exact .scope hm (ih hg)
    | arg hm hm' _ ih => exact .arg hm hm' (ih hg)

/-- C26: going to stage 2 and back gives the same document, if no `\begin` command spans several
lines. Missing: `\begin` commands with newlines in or before their arguments; the property fails there,
see `C26_false`. -/
theorem C26_partial (s : Str) (d : Ast1.Document) (e : Document) (hd : Ast1.fromStr s = .ok d)
    (he : tryFrom d = .ok e)
    (hb : ∀ args, Ast1.Within d (.command (.mk chars!"begin" args)) → '\n' ∉ Ast1.displayArgs args) :
    toAst1 e = .ok d := by
  have hback : BackAll d := by
    intro lv hl
    refine ⟨Ast1.sane_parsed hd lv hl, ?_⟩
    intro l p lab args hm
    refine ⟨?_, label_reads hd hl.level hm (.head _)⟩
    rw [argNewlines_eq, newlines_eq_count]
    exact List.count_eq_zero.2 (hb _ (Ast1.level_within hl.level _ (.here hm)))
  have := back_tryFrom he hback 0
  rw [map_shift_zero] at this
  rw [toAst1_eq this, foldl_push_nomerge]
  exact (Ast1.C09 s d hd d .top).2.1

/-- C26 is false of the code: with a newline in the arguments of `\begin` the commands come back with
other line numbers. -/
theorem C26_false : ∃ s d e, Ast1.fromStr s = .ok d ∧ tryFrom d = .ok e ∧ ∃ d', toAst1 e = .ok d' ∧ d' ≠ d := by
  refine ⟨chars!"\\begin\n{a}\\end{a}",
    [.mk 1 (.command (.mk chars!"begin" [(chars!"\n", .mk [.mk 1 (.text chars!"a")] .curly)])),
     .mk 2 (.command (.mk chars!"end" [([], .mk [.mk 1 (.text chars!"a")] .curly)]))],
    [.mk 2 (.environment (.mk chars!"a" [] [] chars!"\n" []))], by decide +kernel, by decide +kernel,
    [.mk 2 (.command (.mk chars!"begin" [(chars!"\n", .mk [.mk 1 (.text chars!"a")] .curly)])),
     .mk 3 (.command (.mk chars!"end" [([], .mk [.mk 1 (.text chars!"a")] .curly)]))], by decide +kernel, by decide +kernel⟩

example : ∀ args, Ast1.Within basicSource2 (.command (.mk chars!"begin" args)) → '\n' ∉ Ast1.displayArgs args := by
  have : Ast1.AllChunks (fun v => match v with
      | .command (.mk label args) => label = chars!"begin" → '\n' ∉ Ast1.displayArgs args
      | _ => True) basicSource2 := by
    simp [basicSource2, Ast1.AllChunks, Ast1.Chunk.All, Ast1.ChunkVariant.All, Ast1.Command.All, Ast1.Scope.All,
      Ast1.AllArgs, Ast1.displayArgs, Ast1.Scope.display, Ast1.displayChunks, Ast1.Chunk.display,
      Ast1.ChunkVariant.display, ScopeVariant.opening, ScopeVariant.closing]
  exact fun args hw => (Ast1.allChunks_iff _).1 this _ hw rfl

/-- C27: stage 2 to stage 1 keeps the text, if every environment has a positive line number and a label
that reads as itself. Missing: other labels and line 0, where the conversion panics or loses text, see
`C27_false`. -/
theorem C27_partial (e : Document)
    (h : ∀ lv l label args content pb pe, Level e lv →
      .mk l (.environment (.mk label args content pb pe)) ∈ lv →
      1 ≤ l ∧ ∃ cs, Ast1.fromStr label = .ok cs ∧ Ast1.displayChunks cs = label) :
    ∃ d, toAst1 e = .ok d ∧ Ast1.displayChunks d = displayChunks e := by
  obtain ⟨xs, h1, h2⟩ := into_display 0 e fun lv hl l label args content pb pe hm =>
    h lv l label args content pb pe hl hm
  refine ⟨_, toAst1_eq h1, ?_⟩
  rw [foldl_push_display, h2]; simp [Ast1.displayChunks]

/-- C27, with labels free of special characters (such as every label that validates). -/
theorem C27_plain_partial (e : Document)
    (h : ∀ lv l label args content pb pe, Level e lv →
      .mk l (.environment (.mk label args content pb pe)) ∈ lv → 1 ≤ l ∧ Sanitised label) :
    ∃ d, toAst1 e = .ok d ∧ Ast1.displayChunks d = displayChunks e :=
  C27_partial e fun lv l label args content pb pe hl hm =>
    ⟨(h lv l label args content pb pe hl hm).1, (Ast1.C13 label (h lv l label args content pb pe hl hm).2).2⟩

/-- C27 is false of the code: an environment on line 0, or with a label that does not parse, makes the
conversion panic; a label containing `%` is truncated. -/
theorem C27_false :
    toAst1 [.mk 0 (.environment (.mk chars!"a" [] [.mk 1 (.text chars!"x")] [] []))] = .error .panic ∧
    toAst1 [.mk 1 (.environment (.mk chars!"(" [] [] [] []))] = .error .panic ∧
    (∃ e d, toAst1 e = .ok d ∧ Ast1.displayChunks d ≠ displayChunks e) := by
  refine ⟨by decide +kernel, by decide +kernel,
    [.mk 1 (.environment (.mk chars!"a%" [] [] [] []))],
    [.mk 1 (.command (.mk chars!"begin" [([], .mk [.mk 1 (.text chars!"a")] .curly)])),
     .mk 1 (.command (.mk chars!"end" [([], .mk [.mk 1 (.text chars!"a")] .curly)]))],
    by decide +kernel, by decide +kernel⟩

/-! ### C28, C29 -/

/-- C28: the stage-2 parser returns `Ok` or `Err` on every string. -/
theorem C28 (s : Str) : (∃ e, fromStr s = .ok e) ∨ (∃ e, fromStr s = .error (.err e)) := by
  unfold fromStr
  rcases Ast1.C08 s with ⟨d, hd⟩ | ⟨e, he⟩
  · rw [hd]
    simp only
    cases hr : tryFrom d with
    | ok e => exact .inl ⟨e, rfl⟩
    | error f =>
      cases f with
      | err e => exact .inr ⟨e, rfl⟩
      | panic => exact absurd hr (tryFrom_no_panic (Ast1.sane_numbered (Ast1.sane_parsed hd)))
      | fuel => exact absurd hr (tryFrom_fuel d)
  · rw [he]; exact .inr ⟨e, rfl⟩

/-- C28 for documents built by hand: the conversion terminates on every stage-1 document, and panics on
none that is numbered in order. -/
theorem C28_tryFrom (d : Ast1.Document) : tryFrom d ≠ .error .fuel ∧
    (NumberedInOrder d → tryFrom d ≠ .error .panic) := ⟨tryFrom_fuel d, tryFrom_no_panic⟩

/-- The hypothesis cannot be dropped: a document numbered backwards makes the conversion panic. -/
theorem C28_backwards : tryFrom [.mk 5 (.command (.mk chars!"begin" [([], .mk [] .curly)])),
    .mk 1 (.text chars!"x")] = .error .panic := by decide +kernel

example : NumberedInOrder basicSource2 := Ast1.sane_numbered (Ast1.sane_parsed basicSource2_parsed)

/-- C29: the conversion keeps the number of lines. -/
theorem C29 (d : Ast1.Document) (e : Document) (h : tryFrom d = .ok e) :
    Document.lines e = Ast1.Document.lines d := by
  rw [Document.lines, Ast1.Document.lines, linesSum_eq, Ast1.linesSum_eq, C21 d e h]

/-- C29 for source text. -/
theorem C29_source (s : Str) (e : Document) (h : fromStr s = .ok e) : Document.lines e = lineCount s := by
  unfold fromStr at h
  cases hd : Ast1.fromStr s with
  | error f => rw [hd] at h; cases h
  | ok d => rw [hd] at h; rw [C29 d e h, Ast1.C05 s d hd]

example : fromStr Fidelity.basicSrc2 = .ok Fidelity.basicAst2 ∧ lineCount Fidelity.basicSrc2 = 8 := by decide +kernel

/-! ### C30 -/

/-- C30: in a converted document every sequence of chunks is numbered from 1 (so the content of an
environment is numbered from the line on which it starts), and an environment carries the line of its
`\begin` plus the newlines in and before the arguments of that `\begin`. Missing: that it carries the line
of the `\begin` itself, which is true iff these contain no newline, see `C30_false`. -/
theorem C30_partial (s : Str) (e : Document) (h : fromStr s = .ok e) (lv : List Chunk) (hl : Level e lv)
    (pre : List Chunk) (c : Chunk) (post : List Chunk) (he : lv = pre ++ c :: post) :
    -- an environment
    (∀ label args content pb pe, c.variant = .environment (.mk label args content pb pe) →
      c.lineNo = 1 + (displayChunks pre).count '\n' + (pb ++ label ++ displayArgs args).count '\n') ∧
    -- a scope, or a command other than `\`+newline
    ((∀ t, c.variant ≠ .text t) → (∀ args, c.variant ≠ .command (.mk ['\n'] args)) →
      (∀ x, c.variant ≠ .environment x) → c.lineNo = 1 + (displayChunks pre).count '\n') ∧
    -- any chunk
    1 + (displayChunks pre).count '\n' ≤ c.lineNo ∧
    c.lineNo ≤ 1 + (displayChunks pre).count '\n' + c.display.count '\n' := by
  unfold fromStr at h
  cases hd : Ast1.fromStr s with
  | error f => rw [hd] at h; cases h
  | ok d =>
    rw [hd] at h
    have := sane2_tryFrom h (Ast1.sane_parsed hd) lv hl pre c post he
    simp only [newlines_eq_count] at this
    exact ⟨this.2.2.1, this.2.2.2, this.1, this.2.1⟩

/-- C30, `\begin` commands on one line: the environment carries the line of its `\begin`. -/
theorem C30_one_line_partial (s : Str) (e : Document) (h : fromStr s = .ok e) (lv : List Chunk) (hl : Level e lv)
    (pre post : List Chunk) (l : Nat) (label : Str) (args : List (Str × Scope)) (content : List Chunk) (pb pe : Str)
    (he : lv = pre ++ .mk l (.environment (.mk label args content pb pe)) :: post)
    (hn : '\n' ∉ pb ++ label ++ displayArgs args) : l = 1 + (displayChunks pre).count '\n' := by
  have := (C30_partial s e h lv hl pre _ post he).1 label args content pb pe rfl
  rw [List.count_eq_zero.2 hn] at this
  exact this

/-- C30 is false of the code: the `\begin` of the environment is on line 1. -/
theorem C30_false : fromStr chars!"\\begin\n{a}\\end{a}" =
    .ok [.mk 2 (.environment (.mk chars!"a" [] [] chars!"\n" []))] := by decide +kernel

example : ∃ lv pre post, Level Fidelity.basicAst2 lv ∧
    lv = pre ++ .mk 3 (.environment (.mk chars!"itemize" []
        [.mk 1 (.text chars!"\n        "), .mk 2 (.command (.mk chars!"item" [])),
         .mk 2 (.text chars!" test\n    ")] [] [])) :: post :=
  ⟨_, [.mk 1 (.text chars!"\n    Hello\n    ")], [.mk 5 (.text chars!"\n")],
    .envContent .top (.tail _ (.tail _ (.head _))), rfl⟩

/-! ### C47 -/

/-- C47: a document without `\begin` and `\end` converts to the same structure, and back to itself with
adjacent texts merged. -/
theorem C47 (d : Ast1.Document) (h : NoDelimiters d) :
    tryFrom d = .ok (Ast1.chunksAsAst2 d) ∧
    toAst1 (Ast1.chunksAsAst2 d) = .ok (d.foldl Ast1.Document.pushChunkUnchecked []) := by
  obtain ⟨e, he⟩ := noDelims_ok h
  have := noDelims_eq he h
  subst this
  refine ⟨he, ?_⟩
  have hb := back_chunksAsAst2 0 d
  rw [map_shift_zero] at hb
  exact toAst1_eq hb

/-- C47 for parsed documents: they come back unchanged. -/
theorem C47_parsed (s : Str) (d : Ast1.Document) (hs : Ast1.fromStr s = .ok d) (h : NoDelimiters d) :
    fromStr s = .ok (Ast1.chunksAsAst2 d) ∧ toAst1 (Ast1.chunksAsAst2 d) = .ok d := by
  obtain ⟨h1, h2⟩ := C47 d h
  refine ⟨by simp [fromStr, hs, h1], ?_⟩
  rw [h2, foldl_push_nomerge]
  exact (Ast1.C09 s d hs d .top).2.1

example : NoDelimiters Fidelity.basicAst := by
  have : Ast1.AllChunks (fun v => match v with
      | .command (.mk label _) => label ≠ chars!"begin" ∧ label ≠ chars!"end"
      | _ => True) Fidelity.basicAst := by
    simp [Fidelity.basicAst, Ast1.AllChunks, Ast1.Chunk.All, Ast1.ChunkVariant.All, Ast1.Command.All, Ast1.Scope.All,
      Ast1.AllArgs]
  exact fun label args hw => (Ast1.allChunks_iff _).1 this _ hw

end LatexAst.Ast2
