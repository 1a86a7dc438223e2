import Verif.Proofs.Nest1
import Verif.Proofs.Valid
import Verif.Model.Eq1
import Verif.Model.Fidelity

/-!
# C01, C02, C04–C09, C11–C13, C49: properties of the stage-1 parser

Everything is stated with `Verif.Spec.Source` (comments, escapes, levels) and `Verif.Spec.Valid`.
The round trip in the other direction (C03) is in `Verif.Props.RoundTrip1`.
-/

namespace LatexAst.Ast1
open Spec

/-! ### C01 -/

/-- C01, what holds of every accepted string: printing the result only ever *drops* characters of the
source, never adds or reorders any, up to the kind of brackets (a round or square free scope is printed
with curly brackets). With comments free of backslashes nothing of the comments survives either.
Missing for the full property: equality; it fails, see `C01_false`. -/
theorem C01_partial (s : Str) (d : Document) (h : fromStr s = .ok d) :
    ((displayChunks d).map anyBracket).Sublist (s.map anyBracket) ∧
    (NoBackslashInComments s →
      ((displayChunks d).map anyBracket).Sublist ((stripComments s).map anyBracket)) :=
  ⟨fromStr_sub h, fromStr_sub_strip h⟩

/-- C01, when no character at all is dropped (same length), the round trip is exact up to the kind
of brackets. -/
theorem C01_length_partial (s : Str) (d : Document) (h : fromStr s = .ok d)
    (hs : NoBackslashInComments s) (hl : (displayChunks d).length = (stripComments s).length) :
    (displayChunks d).map anyBracket = (stripComments s).map anyBracket :=
  ((C01_partial s d h).2 hs).eq_of_length (by simpa using hl)

/-- C01 is false of the code: nested brackets of an argument are dropped; the kind of a free scope is
forgotten; an escaped bracket after a command loses its backslash; a final backslash is dropped. -/
theorem C01_false :
    (∃ d, fromStr chars!"\\foo{a{b}c}" = .ok d ∧ displayChunks d = chars!"\\foo{abc}") ∧
    (∃ d, fromStr chars!"(a)" = .ok d ∧ displayChunks d = chars!"{a}") ∧
    (∃ d, fromStr chars!"\\foo\\(x)" = .ok d ∧ displayChunks d = chars!"\\foo(x)") ∧
    (∃ d, fromStr chars!"a\\" = .ok d ∧ displayChunks d = chars!"a") :=
  ⟨⟨[.mk 1 (.command (.mk chars!"foo" [([], .mk [.mk 1 (.text chars!"abc")] .curly)]))],
      by decide +kernel, by decide +kernel⟩,
   ⟨[.mk 1 (.scope (.mk [.mk 1 (.text chars!"a")] .curly))], by decide +kernel, by decide +kernel⟩,
   ⟨[.mk 1 (.command (.mk chars!"foo" [([], .mk [.mk 1 (.text chars!"x")] .round)]))],
      by decide +kernel, by decide +kernel⟩,
   ⟨[.mk 1 (.text chars!"a")], by decide +kernel, by decide +kernel⟩⟩

/-- The hypotheses are met: a source with comments, scopes, arguments and escapes. -/
example : fromStr Fidelity.basicSrc = .ok Fidelity.basicAst ∧ NoBackslashInComments Fidelity.basicSrc ∧
    (displayChunks Fidelity.basicAst).length = (stripComments Fidelity.basicSrc).length :=
  ⟨by decide +kernel, by simp [Fidelity.basicSrc, NoBackslashInComments], by decide +kernel⟩

/-! ### C02 -/

/-- C02: comments without backslashes have no effect at all, on success or failure, wherever they
are. Missing: comments containing a backslash, for which it is false (`C02_false`). -/
theorem C02_partial (s : Str) (h : NoBackslashInComments s) : fromStr s = fromStr (stripComments s) :=
  fromStr_of_lex ((lex_strip s false false).1 rfl rfl h).symm

/-- C02, placements: two sources that differ only in where they have comments parse alike. -/
theorem C02_placement_partial (s s' : Str) (h : NoBackslashInComments s)
    (h' : NoBackslashInComments s') (he : stripComments s = stripComments s') :
    fromStr s = fromStr s' := by
  rw [C02_partial s h, C02_partial s' h', he]

/-- C02, exactly what any comment amounts to: nothing, or one backslash (its first one). -/
theorem C02_exact_partial (s : Str) : fromStr s = fromStr (keepBackslashes s) :=
  fromStr_of_lex ((lex_keep s false false).1 rfl rfl).symm

/-- C02 is false of the code for a comment that contains a backslash: the newline ending the comment
becomes the command `\`+newline. -/
theorem C02_false : ∃ s, fromStr s ≠ fromStr (stripComments s) :=
  ⟨chars!"%\\\nx", by decide +kernel⟩

/-- Non-trivial instances: comments inside an argument and at end of file; a failing source. -/
example : NoBackslashInComments chars!"a%b{\n\\foo{x%}\n}%" ∧
    stripComments chars!"a%b{\n\\foo{x%}\n}%" = chars!"a\n\\foo{x\n}" ∧
    fromStr chars!"a%b{\n\\foo{x%}\n}%" = .ok [.mk 1 (.text chars!"a\n"), .mk 2 (.command (.mk chars!"foo"
      [([], .mk [.mk 1 (.text chars!"x\n")] .curly)]))] :=
  ⟨by simp [NoBackslashInComments, NoBackslashInComment], by decide +kernel, by decide +kernel⟩

/-! ### C04, C05 -/

/-- C04: every character other than brackets and backslashes comes out once and in order. -/
theorem C04 (s : Str) (d : Document) (h : fromStr s = .ok d) :
    visible (displayChunks d) = visible (stripComments s) :=
  filter_fromStr vis_visible h

example : fromStr chars!"\\foo{a{b}c}% x\n[\\%]" = .ok [.mk 1 (.command (.mk chars!"foo"
      [([], .mk [.mk 1 (.text chars!"abc")] .curly),
       (chars!"\n", .mk [.mk 1 (.command (.mk chars!"%" []))] .square)]))] ∧
    visible (stripComments chars!"\\foo{a{b}c}% x\n[\\%]") = chars!"fooabc\n%" :=
  ⟨by decide +kernel, by decide +kernel⟩

/-- C05: the parsed document has as many lines as the source. -/
theorem C05 (s : Str) (d : Document) (h : fromStr s = .ok d) : Document.lines d = lineCount s := by
  rw [Document.lines, linesSum_eq, newlines_fromStr h, newlines_eq_count, lineCount]

example : ∃ d, fromStr chars!"a % x\n\\foo\n{b\n}" = .ok d ∧ Document.lines d = 4 :=
  ⟨[.mk 1 (.text chars!"a \n"), .mk 2 (.command (.mk chars!"foo"
      [(chars!"\n", .mk [.mk 1 (.text chars!"b\n")] .curly)]))], by decide +kernel, by decide +kernel⟩

/-! ### C06 -/

/-- C06, exact line numbers: at every level, a chunk's line number is one plus the newlines printed
before it, with two exceptions, both characterised exactly. Missing for the full property: the
exceptions (it fails there, `C06_false`). -/
theorem C06_partial (s : Str) (d : Document) (h : fromStr s = .ok d) (lv : List Chunk)
    (hl : Level d lv) (pre post : List Chunk) (c : Chunk) (he : lv = pre ++ c :: post) :
    -- the command `\`+newline is numbered one line too late
    ((∃ args, c.variant = .command (.mk ['\n'] args)) →
      c.lineNo = 1 + (displayChunks pre).count '\n' + 1) ∧
    -- a final blank text after a letter command is numbered with its last line
    (∀ t, c.variant = .text t → post = [] → Blank t → EndsWithLetterCommand pre →
      c.lineNo = 1 + (displayChunks pre).count '\n' + t.count '\n') ∧
    -- every other chunk is numbered correctly
    ((¬ ∃ args, c.variant = .command (.mk ['\n'] args)) →
      (¬ ∃ t, c.variant = .text t ∧ post = [] ∧ Blank t ∧ EndsWithLetterCommand pre) →
      c.lineNo = 1 + (displayChunks pre).count '\n') := by
  obtain ⟨a, ha⟩ := level_parsed h hl
  have hg := (goodR_iff.1 (fromStr_good ha) pre c post he).1
  rw [newlines_eq_count] at hg
  rw [hg]
  obtain ⟨l, v⟩ := c
  refine ⟨?_, ?_, ?_⟩
  · rintro ⟨args, hv⟩
    simp only [Chunk.variant] at hv; subst hv; simp [offset]
  · intro t hv hp hb hlc
    simp only [Chunk.variant] at hv; subst hv
    rw [(prev_letter_iff pre).2 hlc]
    simp [offset, hp, all_ws_blank.2 hb, newlines_eq_count]
  · intro h1 h2
    cases v with
    | scope s => simp [offset]
    | command c =>
      obtain ⟨lab, args⟩ := c
      have : lab ≠ ['\n'] := by rintro rfl; exact h1 ⟨args, rfl⟩
      simp [offset, this]
    | text t =>
      simp only [offset]
      split
      · rename_i hc
        exfalso; apply h2
        refine ⟨t, rfl, by simpa using hc.2.1, all_ws_blank.1 hc.2.2, (prev_letter_iff pre).1 hc.1⟩
      · simp

/-- C06 is false of the code: the final text starts on line 1 but is numbered 3. -/
theorem C06_false : fromStr chars!"\\foo\n\n" =
    .ok [.mk 1 (.command (.mk chars!"foo" [])), .mk 3 (.text chars!"\n\n")] := by decide +kernel

example : fromStr Fidelity.basicSrc = .ok Fidelity.basicAst ∧
    Level Fidelity.basicAst [.mk 1 (.text chars!"\n"),
       .mk 2 (.command (.mk chars!"container"
          [([], .mk [.mk 1 (.text chars!"123")] .round),
           (chars!"\n", .mk [.mk 1 (.text chars!"456")] .square)])),
       .mk 3 (.text chars!"\ntext\n")] :=
  ⟨by decide +kernel, .arg .top (l := 3) (label := chars!"textbf") (prec := chars!" ") (sv := .curly)
    (by simp [Fidelity.basicAst]; rfl) (by simp)⟩

/-! ### C07, C08, C49 -/

/-- C07: error lines point into the source. -/
theorem C07 (s : Str) (e : Error) (h : fromStr s = .error (.err e)) :
    1 ≤ e.line ∧ e.line ≤ lineCount s := by
  have := fromStr_error_line h
  rw [newlines_eq_count] at this
  exact this

example : fromStr chars!"a\n{\n\\foo)}" = .error (.err ⟨3, .unexpectedClosing .round⟩) := by
  decide +kernel

/-- C08: on every string the parser terminates with `Ok` or `Err`: no panic, and the model's recursion
budget is never exhausted. -/
theorem C08 (s : Str) : (∃ d, fromStr s = .ok d) ∨ (∃ e, fromStr s = .error (.err e)) := by
  have h := fromStr_total s
  rcases hs : fromStr s with f | d
  · rw [hs] at h
    rcases f with e | _ | _
    · exact .inr ⟨e, rfl⟩
    · exact absurd rfl h.1
    · exact absurd rfl h.2
  · exact .inl ⟨d, rfl⟩

theorem trun_error_type {rec : Str → Res (List Chunk)} {ts b bl ln e}
    {P : ErrorType → Prop} (h1 : ∀ v, P (.unexpectedClosing v)) (h2 : ∀ v, P (.unclosedScope v))
    (h3 : ∀ v, P (.unclosedArgument v))
    (hrec : ∀ a e, rec a = .error (.err e) → P e.type)
    (hi : Inv b bl ln) (h : trun rec ts b bl ln = .error (.err e)) : P e.type := by
  have key : ∀ {b bl}, FromRec rec b bl (.err e) → P e.type := by
    intro b bl hf
    obtain ⟨a, g, hm, hr, ha⟩ := hf
    rcases g with e' | _ | _
    · simp only [addLine] at ha; injection ha with ha; injection ha with ha; subst ha
      exact hrec a e' hr
    · simp [addLine] at ha
    · simp [addLine] at ha
  induction ts generalizing b bl ln with
  | nil =>
    simp only [trun] at h
    rcases tfinish_error hi.ctl h with ⟨v, d, a, rfl, hf⟩ | ⟨v, l, sc, d, tr, rfl, hf⟩ | hf
    · injection hf with hf; subst hf; exact h2 v
    · injection hf with hf; subst hf; exact h3 v
    · exact key hf
  | cons t ts ih =>
    simp only [trun] at h
    rcases ht : tstep rec b bl (lnAfter ln t) t with g | ⟨new, b', bl'⟩
    · rw [ht] at h; injection h with h; subst h
      rcases tstep_error hi.ctl ht with ⟨v, hf⟩ | hf
      · injection hf with hf; subst hf; exact h1 v
      · exact key hf
    · rw [ht] at h; simp only at h
      have hs := tstep_ok hi.ctl ht
      rcases hr : trun rec ts b' bl' (lnAfter ln t) with g | rest
      · rw [hr] at h; injection h with h; subst h
        exact ih (hs.inv hi) hr
      · rw [hr] at h; cases h

/-- C49: the only errors of the stage-1 parser are about brackets. -/
theorem C49 (s : Str) (e : Error) (h : fromStr s = .error (.err e)) :
    ∃ v, e.type = .unexpectedClosing v ∨ e.type = .unclosedArgument v ∨ e.type = .unclosedScope v := by
  unfold fromStr at h
  generalize s.length + 1 = n at h
  induction n generalizing s e with
  | zero => simp [parseFuel] at h
  | succ n ih =>
    rw [parseFuel_succ] at h
    exact trun_error_type (P := fun t => ∃ v, t = .unexpectedClosing v ∨ t = .unclosedArgument v ∨
      t = .unclosedScope v) (fun v => ⟨v, .inl rfl⟩) (fun v => ⟨v, .inr (.inr rfl)⟩)
      (fun v => ⟨v, .inr (.inl rfl)⟩) (fun a e hr => ih a e hr) inv_init h

/-! ### C09 -/

/-- C09: shape of every sequence of chunks of a parsed document. -/
theorem C09 (s : Str) (d : Document) (h : fromStr s = .ok d) (lv : List Chunk) (hl : Level d lv) :
    -- texts are not empty and contain no backslash, percent sign or opening bracket
    (∀ l t, .mk l (.text t) ∈ lv → t ≠ [] ∧ ∀ x ∈ t, x ∉ ['\\', '%', '{', '[', '(']) ∧
    -- no two adjacent texts
    (∀ pre post l l' t t', lv ≠ pre ++ .mk l (.text t) :: .mk l' (.text t') :: post) ∧
    -- a command is a letter command, its arguments preceded by whitespace only, or a symbol
    (∀ l label args, .mk l (.command (.mk label args)) ∈ lv →
      ((∃ c r, label = c :: r ∧ isAsciiAlphabetic c = true ∧
          ∀ x ∈ r, isWhitespace x = false ∧ ¬ Special x) ∧
        ∀ prec sc, (prec, sc) ∈ args → Blank prec) ∨
      (∃ c, label = [c] ∧ isAsciiAlphabetic c = false ∧ args = [])) ∧
    -- free scopes are curly
    (∀ l inner sv, .mk l (.scope (.mk inner sv)) ∈ lv → sv = .curly) := by
  obtain ⟨a, ha⟩ := level_parsed h hl
  have hg := goodR_iff.1 (fromStr_good ha)
  have hn : ∀ c ∈ lv, NodeShape c := by
    intro c hc
    obtain ⟨pre, post, rfl⟩ := List.append_of_mem hc
    exact (hg pre c post rfl).2.1
  refine ⟨fun l t hm => hn _ hm, ?_, fun l label args hm => hn _ hm, fun l inner sv hm => hn _ hm⟩
  intro pre post l l' t t' he
  have := (hg (pre ++ [.mk l (.text t)]) (.mk l' (.text t')) post (by simp [he])).2.2 rfl
  simp [kind] at this

/-! ### C11 -/

/-- C11, exactly which parsed documents validate: those whose texts contain no closing bracket (which
the parser accepts as text when nothing is open) and whose top-level chunks have the right line
numbers (C06). Missing: that these always hold; they do not, see `C11_false`. -/
theorem C11_partial (s : Str) (d : Document) (h : fromStr s = .ok d) :
    Document.validate d = .ok () ↔
      NumberedFrom 1 d ∧ ∀ t, Within d (.text t) → ∀ x ∈ t, x ∉ ['}', ']', ')'] := by
  have hw : ∀ {cs : List Chunk} {v}, Within cs v → Level d cs →
      ∃ lv l, Level d lv ∧ Chunk.mk l v ∈ lv := by
    intro cs v hwv
    induction hwv with
    | here hm => intro hl; exact ⟨_, _, hl, hm⟩
    | scope hm _ ih => intro hl; exact ih (.scope hl hm)
    | arg hm hm' _ ih => intro hl; exact ih (.arg hl hm hm')
  rw [validate_iff, Valid]
  refine and_congr Iff.rfl ⟨?_, ?_⟩
  · intro hv t ht x hx hc
    have := hv _ ht x hx
    apply this
    simp only [Special, List.mem_cons, List.not_mem_nil, or_false] at hc ⊢
    grind
  · intro ht v hv
    obtain ⟨lv, l, hl, hm⟩ := hw hv .top
    obtain ⟨c1, _, c3, _⟩ := C09 s d h lv hl
    cases v with
    | scope sc => trivial
    | text t =>
      intro x hx
      have h1 := (c1 l t hm).2 x hx
      have h2 := ht t hv x hx
      simp only [Special, List.mem_cons, List.not_mem_nil, or_false] at h1 h2 ⊢
      grind
    | command c =>
      obtain ⟨label, args⟩ := c
      intro hu
      rcases c3 l label args hm with ⟨⟨c, r, rfl, ha, hr⟩, _⟩ | ⟨c, rfl, ha, rfl⟩
      · intro x hx
        rw [List.mem_cons] at hx
        rcases hx with rfl | hx
        · simp only [Special, List.mem_cons, List.not_mem_nil, or_false]
          rintro (rfl | rfl | rfl | rfl | rfl | rfl | rfl | rfl) <;> revert ha <;> decide
        · exact (hr x hx).2
      · intro x hx
        rw [List.mem_singleton] at hx; subst hx
        simp only [Special, List.mem_cons, List.not_mem_nil, or_false]
        rintro (rfl | rfl | rfl | rfl | rfl | rfl | rfl | rfl) <;>
          exact hu (by decide)

/-- C11 is false of the code: an unmatched closing bracket is accepted as text; a final blank text
has the wrong line. -/
theorem C11_false :
    (∃ d, fromStr chars!"a)" = .ok d ∧
      Document.validate d = .error (.unsanitisedCharInString ')')) ∧
    (∃ d, fromStr chars!"\\foo\n" = .ok d ∧
      Document.validate d = .error (.incorrectChunkLineNumber 1 2)) :=
  ⟨⟨[.mk 1 (.text chars!"a)")], by decide +kernel, by decide +kernel⟩,
   ⟨[.mk 1 (.command (.mk chars!"foo" [])), .mk 2 (.text chars!"\n")], by decide +kernel,
      by decide +kernel⟩⟩

example : fromStr Fidelity.basicSrc = .ok Fidelity.basicAst ∧
    Document.validate Fidelity.basicAst = .ok () := ⟨by decide +kernel, by decide +kernel⟩

/-! ### C12 -/

/-- C12: in an accepted source, every suffix has at most as many (unescaped) opening brackets of each
kind as closing ones: every opening bracket is closed. -/
theorem C12 (s : Str) (d : Document) (h : fromStr s = .ok d) (v : ScopeVariant) (pre suf : Str)
    (he : unescaped (stripComments s) = pre ++ suf) :
    suf.count v.opening ≤ suf.count v.closing := by
  refine nest_suffix ?_ he
  have h1 := parseFuel_nest v _ h
  rw [foldl_lex] at h1
  exact h1

/-- C12 as rejection: a source with an opening bracket never closed is an error. -/
theorem C12_reject (s : Str) (v : ScopeVariant) (pre suf : Str)
    (he : unescaped (stripComments s) = pre ++ suf)
    (hc : suf.count v.closing < suf.count v.opening) : ∃ e, fromStr s = .error (.err e) := by
  rcases C08 s with ⟨d, hd⟩ | he'
  · have := C12 s d hd v pre suf he
    omega
  · exact he'

example : unescaped (stripComments chars!"\\{ \\foo[(]%)\n") = chars!" " ++ chars!"oo[(]\n" ∧
    (chars!"oo[(]\n").count ')' < (chars!"oo[(]\n").count '(' := by decide +kernel

/-! ### C13 -/

theorem trun_plain (rec : Str → Res (List Chunk)) (s : Str) (hs : Sanitised s) (a : Str) (bl ln : Nat) :
    trun rec (lex false false s) (.text a) bl ln = .ok (textC (a ++ s) bl) := by
  induction s generalizing a ln with
  | nil => simp [lex, trun, tfinish]
  | cons c s ih =>
    have hc : ¬ Special c := hs c (by simp)
    simp only [Special, List.mem_cons, List.not_mem_nil, or_false] at hc
    have h1 : c ≠ '%' := by grind
    have h2 : c ≠ '\\' := by grind
    have h3 : ScopeVariant.fromOpening c = none := by
      unfold ScopeVariant.fromOpening; grind
    rw [lex_char h1 h2]
    simp only [trun, tstep, Bool.false_eq_true, if_false, h3]
    rw [ih (fun c hc => hs c (by simp [hc]))]
    simp

/-- C13: plain text is one text chunk, or nothing when empty, and prints back to itself. -/
theorem C13 (s : Str) (hs : Sanitised s) :
    fromStr s = .ok (if s = [] then [] else [.mk 1 (.text s)]) ∧
    ∃ d, fromStr s = .ok d ∧ displayChunks d = s := by
  have : fromStr s = .ok (textC s 1) := by
    rw [fromStr_eq]; exact trun_plain _ s hs [] 1 1
  exact ⟨this, _, this, display_textC s 1⟩

example : Sanitised chars!"plain $text$ \n&c. ~" ∧ Sanitised [] := by
  constructor <;> simp [Sanitised, Special]

end LatexAst.Ast1
