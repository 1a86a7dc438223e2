import Verif.Proofs.Enclosed1
import Verif.Props.LeadingBlanks
import Verif.Props.Documents

/-!
# C104: enclosing a source in an environment
-/

namespace LatexAst.Ast1
open Spec

theorem onLines_parse {s : Str} {d} (h2 : EndsClosed s) (h : fromStr s = .ok d) :
    ∃ d1 d2, Led ['\n'] d d1 ∧ fromStr ('\n' :: s) = .ok d1 ∧ Blanked ['\n'] d1 d2 ∧ fromStr ('\n' :: s ++ ['\n']) = .ok d2 := by
  obtain ⟨d1, k1, k2⟩ := (C103 s ['\n'] nl_blank (by simp)).2 d h
  obtain ⟨d2, k3, k4⟩ := (C102 ('\n' :: s) ['\n'] (endsClosed_nl h2) nl_final).2 d1 k1
  exact ⟨d1, d2, k2, k1, k4, k3⟩

/-- C104, stage 1: between the `\begin` and the `\end` there is the document of `s`, between line ends. -/
theorem C104 (x s : Str) (hx : EnvironmentName x) (h1 : StartsClosed s) (h2 : EndsClosed s) (d : Document) (h : fromStr s = .ok d) :
    ∃ d', OnLines d d' ∧ fromStr (enclosed x s) =
      .ok (.mk 1 (.command (.mk chars!"begin" [([], .mk [.mk 1 (.text x)] .curly)])) ::
        (d' ++ [.mk (s.count '\n' + 3) (.command (.mk chars!"end" [([], .mk [.mk 1 (.text x)] .curly)]))])) := by
  obtain ⟨d1, d2, k1, _, k2, k3⟩ := onLines_parse h2 h
  obtain ⟨d', k4, k5⟩ := fromStr_enclosed hx h1 h2 k3
  exact ⟨d', ⟨d1, k1, k2.refined k4⟩, k5⟩

/-- A source that begins with a command. -/
theorem startsClosed_command {s : Str} {c r} (he : keepBackslashes s = '\\' :: c :: r) (h1 : c ∉ ['{', '[', '('])
    (h2 : isWhitespace c = false) : StartsClosed s := by
  intro w c0 r0 hw e _
  rw [he] at e
  cases w with
  | nil =>
    injection e with e1 e2
    subst e1 e2
    refine ⟨by decide, ?_⟩
    intro c' r' _ e3
    injection e3 with e3 _; subst e3
    exact ⟨h1, h2⟩
  | cons a w =>
    injection e with e1 _
    have := hw a (.head _)
    rw [← e1] at this
    exact absurd this (by decide)

/-- C104 on `\item b%c` in an environment `a`. -/
theorem C104_example : EnvironmentName chars!"a" ∧ StartsClosed chars!"\\item b%c" ∧ EndsClosed chars!"\\item b%c" ∧
    fromStr chars!"\\item b%c" = .ok [.mk 1 (.command (.mk chars!"item" [])), .mk 1 (.text chars!" b")] ∧
    enclosed chars!"a" chars!"\\item b%c" = chars!"\\begin{a}\n\\item b%c\n\\end{a}" ∧
    fromStr chars!"\\begin{a}\n\\item b%c\n\\end{a}" = .ok [.mk 1 (.command (.mk chars!"begin" [([], .mk [.mk 1 (.text chars!"a")] .curly)])),
      .mk 1 (.text chars!"\n"), .mk 2 (.command (.mk chars!"item" [])), .mk 2 (.text chars!" b\n"),
      .mk 3 (.command (.mk chars!"end" [([], .mk [.mk 1 (.text chars!"a")] .curly)]))] :=
  ⟨⟨by decide, by unfold Sanitised; decide, by decide⟩, startsClosed_command (c := 'i') (r := chars!"tem b") rfl (by decide) (by decide),
    trivial, by decide +kernel, rfl, by decide +kernel⟩

/-- The conditions are needed: what begins with a bracket becomes an argument of the `\begin`, and a last backslash takes the line end
(here the document of the source is not there any more). -/
theorem C104_needed : fromStr chars!"[b]" = .ok [.mk 1 (.scope (.mk [.mk 1 (.text chars!"b")] .curly))] ∧
    fromStr (enclosed chars!"a" chars!"[b]") = .ok [.mk 1 (.command (.mk chars!"begin" [([], .mk [.mk 1 (.text chars!"a")] .curly),
      (chars!"\n", .mk [.mk 1 (.text chars!"b")] .square)])), .mk 2 (.text chars!"\n"),
      .mk 3 (.command (.mk chars!"end" [([], .mk [.mk 1 (.text chars!"a")] .curly)]))] ∧
    fromStr chars!"b\\" = .ok [.mk 1 (.text chars!"b")] ∧
    fromStr (enclosed chars!"a" chars!"b\\") = .ok [.mk 1 (.command (.mk chars!"begin" [([], .mk [.mk 1 (.text chars!"a")] .curly)])),
      .mk 1 (.text chars!"\nb"), .mk 3 (.command (.mk chars!"\n" [])),
      .mk 3 (.command (.mk chars!"end" [([], .mk [.mk 1 (.text chars!"a")] .curly)]))] :=
  ⟨by decide +kernel, by decide +kernel, by decide +kernel, by decide +kernel⟩

end LatexAst.Ast1

namespace LatexAst.Ast2
open Spec
open LatexAst.Ast1 (Refined Checked NumberedInOrder fromStr_enclosed nameArg)

theorem text_snoc {cs : List Ast1.Chunk} {l0 t0 x} (hx : tryFrom (cs ++ [.mk l0 (.text t0)]) = .ok x) :
    ∃ y, tryFrom cs = .ok y ∧ x = y ++ [.mk l0 (.text t0)] := by
  have hp : tryFrom (cs ++ [.mk l0 (.text t0)]) ≠ .error .panic := by rw [hx]; simp
  cases hr : run tryFrom cs State.init with
  | error f => rw [last_error hr] at hx; cases hx
  | ok s0 =>
    rw [last_text hp hr] at hx
    by_cases hs0 : s0.stack = []
    · rw [if_pos hs0] at hx
      exact ⟨s0.chunks, tryFrom_run hr hs0, by injection hx with hx; exact hx.symm⟩
    · rw [if_neg hs0] at hx
      obtain ⟨f, hf, _⟩ := finish_open hs0
      rw [hf] at hx; cases hx

theorem tryFrom_one_text (l t) : tryFrom [.mk l (.text t)] = .ok [.mk l (.text t)] := by
  rw [tryFrom_eq]; simp [convWith, run, step, State.init, finish, State.pushChunks]

theorem refined {w d2 d' e1 e2} (h : Blanked w e1 e2) (hr : Refined d2 d') (ht : tryFrom d2 = .ok e2) :
    ∃ e', tryFrom d' = .ok e' ∧ Blanked w e1 e' := by
  cases hr with
  | same => exact ⟨e2, ht, h⟩
  | @blanks init l k hk =>
    obtain ⟨y, h1, rfl⟩ := text_snoc ht
    refine ⟨y ++ [.mk l (.text k)], by rw [tryFrom_append h1, tryFrom_one_text], ?_⟩
    generalize he : y ++ [Chunk.mk (l + k.count '\n') (.text k)] = z at h
    cases h with
    | added hn =>
      obtain ⟨e1, e2⟩ := List.append_inj' he rfl
      subst e1
      simp only [List.cons.injEq, Chunk.mk.injEq, ChunkVariant.text.injEq, and_true] at e2
      rw [e2.2]
      exact .added hn
    | longer =>
      obtain ⟨e1, e2⟩ := List.append_inj' he rfl
      subst e1
      simp only [List.cons.injEq, Chunk.mk.injEq, ChunkVariant.text.injEq, and_true] at e2
      rw [e2.2] at hk ⊢
      exact .blanks fun c hc => hk c (List.mem_append_left _ hc)
    | blanks hb =>
      obtain ⟨e1, e2⟩ := List.append_inj' he rfl
      subst e1
      simp only [List.cons.injEq, Chunk.mk.injEq, ChunkVariant.text.injEq, and_true] at e2
      rw [e2.2]
      exact .blanks hb

/-- What converts, in an environment. -/
theorem tryFrom_environment {x : Str} {l' : Nat} {d : List Ast1.Chunk} {e : List Chunk} (hx : '\n' ∉ x)
    (hn : Ast1.SaneAll (.mk 1 (.command (.mk chars!"begin" (nameArg x))) :: (d ++ [.mk l' (.command (.mk chars!"end" (nameArg x)))])))
    (h : tryFrom d = .ok e) :
    tryFrom (.mk 1 (.command (.mk chars!"begin" (nameArg x))) :: (d ++ [.mk l' (.command (.mk chars!"end" (nameArg x)))])) =
      .ok [.mk 1 (.environment (.mk x [] e [] []))] := by
  have hn := Ast1.sane_numbered hn
  have hend : endOfBegin 1 (nameArg x) = 1 := by
    simp [endOfBegin, nameArg, Ast1.displayArgs, Ast1.Scope.display, Ast1.displayChunks, Ast1.Chunk.display, Ast1.ChunkVariant.display,
      ScopeVariant.opening, ScopeVariant.closing, List.count_eq_zero.2 hx]
  have hpos : ∀ c ∈ d, 1 ≤ c.lineNo := by
    intro c hc
    obtain ⟨mid, post, rfl⟩ := List.append_of_mem hc
    have := hn _ .top [] 1 (nameArg x) mid c (post ++ [.mk l' (.command (.mk chars!"end" (nameArg x)))]) (by simp)
    omega
  have hnd : NumberedInOrder d := by
    have sub : ∀ lv, Checked d lv → lv = d ∨ Checked (.mk 1 (.command (.mk chars!"begin" (nameArg x))) ::
        (d ++ [.mk l' (.command (.mk chars!"end" (nameArg x)))])) lv := by
      intro lv hl
      induction hl with
      | top => exact .inl rfl
      | scope _ hm ih =>
        right
        rcases ih with rfl | ih
        · exact .scope .top (.tail _ (List.mem_append_left _ hm))
        · exact .scope ih hm
      | arg _ hm h1 h2 h3 ih =>
        right
        rcases ih with rfl | ih
        · exact .arg .top (.tail _ (List.mem_append_left _ hm)) h1 h2 h3
        · exact .arg ih hm h1 h2 h3
      | beginArg _ hm h1 ih =>
        right
        rcases ih with rfl | ih
        · exact .beginArg .top (.tail _ (List.mem_append_left _ hm)) h1
        · exact .beginArg ih hm h1
    intro lv hl pre l args mid c post he
    rcases sub lv hl with rfl | hl
    · exact hn _ .top (.mk 1 (.command (.mk chars!"begin" (nameArg x))) :: pre) l args mid c
        (post ++ [.mk l' (.command (.mk chars!"end" (nameArg x)))]) (by rw [he]; simp)
    · exact hn lv hl pre l args mid c post he
  have hm : d.map (renumber 1) = d := by
    have : ∀ cs : List Ast1.Chunk, (∀ c ∈ cs, 1 ≤ c.lineNo) → cs.map (renumber 1) = cs := by
      intro cs
      induction cs with
      | nil => intro _; rfl
      | cons c cs ih =>
        intro h
        obtain ⟨l, v⟩ := c
        have h1 := h _ (.head _)
        simp only [Ast1.Chunk.lineNo] at h1
        rw [List.map_cons, ih fun c hc => h c (.tail _ hc), renumber, Nat.sub_add_cancel h1]
    exact this d hpos
  have := Converts.environment (l := 1) (p := []) (lab := [.mk 1 (.text x)]) (body := d) (l' := l') (pe := []) (cs := []) (i := .ok e)
    (o := .ok []) (items := []) ((Ast1.opened_iff_matched d).1 (ok_opened h d .top)) (by simp)
    (by
      rw [show ((([] : Str), Ast1.Scope.mk [.mk 1 (.text x)] .curly) :: List.map (·.1) ([] : List ((Str × Ast1.Scope) × Outcome))) = nameArg x from rfl,
        hend, hm]
      exact (converts_iff hnd (.ok e)).2 h) .nil
  have := this.sound hn
  rw [show ((([] : Str), Ast1.Scope.mk [.mk 1 (.text x)] .curly) :: List.map (·.1) ([] : List ((Str × Ast1.Scope) × Outcome))) = nameArg x from rfl,
    hend] at this
  simpa [nameArg, environmentOutcome, argOutcome, Outcome.after, Outcome.toRes, Ast1.displayChunks, Ast1.Chunk.display, Ast1.ChunkVariant.display] using this

/-- C104, stage 2: a source that is accepted, enclosed in an environment, is one environment with the document of the source, between
line ends. -/
theorem C104 (x s : Str) (hx : EnvironmentName x) (h1 : StartsClosed s) (h2 : EndsClosed s) (e : Document) (h : fromStr s = .ok e) :
    ∃ e', OnLines e e' ∧ fromStr (enclosed x s) = .ok [.mk 1 (.environment (.mk x [] e' [] []))] := by
  obtain ⟨e1, k1, k2⟩ := (C103 s ['\n'] Ast1.nl_blank (by simp)).2 e h
  obtain ⟨e2, k3, k4⟩ := (C102 ('\n' :: s) ['\n'] (Ast1.endsClosed_nl h2) Ast1.nl_final).2 e1 k1
  obtain ⟨d2, m1, m2⟩ := fromStr_parts k3
  obtain ⟨d', m3, m4⟩ := fromStr_enclosed hx h1 h2 m1
  obtain ⟨e', m5, m6⟩ := refined k4 m3 m2
  refine ⟨e', ⟨e1, k2, m6⟩, ?_⟩
  unfold fromStr
  rw [m4]
  exact tryFrom_environment hx.2.2 (Ast1.sane_parsed m4) m5

/-- C104 on `\item b`. -/
theorem C104_example :
    fromStr chars!"\\item b" = .ok [.mk 1 (.command (.mk chars!"item" [])), .mk 1 (.text chars!" b")] ∧
    fromStr (enclosed chars!"a" chars!"\\item b") = .ok [.mk 1 (.environment (.mk chars!"a" []
      [.mk 1 (.text chars!"\n"), .mk 2 (.command (.mk chars!"item" [])), .mk 2 (.text chars!" b\n")] [] []))] :=
  ⟨by decide +kernel, by decide +kernel⟩

/-- A source that is refused may well be accepted in an environment, which it closes and opens again: that the source is accepted
is needed for it to stay inside. -/
theorem C104_converse_false : fromStr chars!"\\end{a}\\begin{a}" = fail 1 (.unexpectedEnd chars!"a") ∧
    fromStr (enclosed chars!"a" chars!"\\end{a}\\begin{a}") = .ok [.mk 1 (.environment (.mk chars!"a" [] [.mk 1 (.text chars!"\n")] [] [])),
      .mk 2 (.environment (.mk chars!"a" [] [.mk 1 (.text chars!"\n")] [] []))] :=
  ⟨by decide +kernel, by decide +kernel⟩

end LatexAst.Ast2

namespace LatexAst.Ast3
open Spec
open Ast2 (DownRes)

theorem ledC_led {w e e1} (h : Ast2.Led w e e1) : Ast2.LedC w e e1 := by
  cases h with
  | added => exact .added
  | longer => exact .longer

theorem endsC_blanked {w e e1} (h : Ast2.Blanked w e e1) : EndsC w e e1 := by
  cases h with
  | added => exact .added
  | longer => exact .longer
  | blanks hk => exact .blanks hk

theorem maths_onLines {e e' : List Ast2.Chunk} {b : List Chunk} (h : Ast2.OnLines e e') (hl : FromOne e) (hb : mathsFromChunks e = .ok b) :
    ∃ b', OnLines b b' ∧ mathsFromChunks e' = .ok b' := by
  obtain ⟨e1, h1, h2⟩ := h
  have k1 := led_maths Ast1.nl_blank (ledC_led h1) hl
  have k2 := maths_ends Ast1.nl_blank (endsC_blanked h2)
  rw [hb] at k1
  revert k1 k2
  generalize mathsFromChunks e1 = y
  generalize mathsFromChunks e' = z
  intro k1 k2
  cases k1 with
  | ok k1 =>
    cases k2 with
    | ok k2 =>
      obtain ⟨p, p', r, h3, h4, h5, rfl, rfl⟩ := k1
      exact ⟨_, ⟨p, p', r, h3, h4, h5, rfl, k2⟩, rfl⟩

theorem paragraphs_maths {e b} (h : mathsFromChunks e = .ok b) : paragraphs b = b := by
  obtain ⟨raw, _, rfl⟩ := (C55_ok _ _).1 h
  exact paragraphs_idem _

theorem maths_nil : mathsFromChunks [] = .ok [] := by decide

/-- C104, stage 3: the source as the body of a document. -/
theorem C104 (s : Str) (h1 : StartsClosed s) (h2 : EndsClosed s) (e : Ast2.Document) (he : Ast2.fromStr s = .ok e)
    (hb : ∀ l args content pb pe, .mk l (.environment (.mk chars!"document" args content pb pe)) ∉ e)
    (d : Document) (h : fromStr s = .ok d) :
    ∃ b, OnLines d.preamable b ∧ fromStr (enclosed chars!"document" s) = .ok { Document.default with body := b } := by
  have hd : tryFrom e = .ok d := by unfold fromStr at h; rwa [he] at h
  have hbody : ∀ c ∈ e, isBody c = false := by
    intro c hc
    obtain ⟨l, v⟩ := c
    cases v with
    | environment en =>
      obtain ⟨label, args, content, pb, pe⟩ := en
      by_cases hl : label = chars!"document"
      · subst hl; exact absurd hc (hb l args content pb pe)
      · simp [isBody, hl]
    | _ => rfl
  obtain ⟨m1, _⟩ := C45_no_body e d hd hbody
  obtain ⟨e', k1, k2⟩ := Ast2.C104 chars!"document" s ⟨by decide, by unfold Sanitised; decide, by decide⟩ h1 h2 e he
  obtain ⟨b, k3, k4⟩ := maths_onLines k1 (fun c hc => (Ast2.level_lines he .top hc).1) m1
  refine ⟨b, k3, ?_⟩
  unfold fromStr
  rw [k2]
  simp [tryFrom, runDocument, stepDocument, Ast2.Environment.label, tryEnvironment, tryArgs, k4, paragraphs_maths k4, maths_nil, DState.init,
    paragraphs, Document.default]

/-- C104, stage 3: the source in another environment. -/
theorem C104_environment (x s : Str) (hx : EnvironmentName x) (hxd : x ≠ chars!"document") (h1 : StartsClosed s) (h2 : EndsClosed s)
    (e : Ast2.Document) (he : Ast2.fromStr s = .ok e)
    (hb : ∀ l args content pb pe, .mk l (.environment (.mk chars!"document" args content pb pe)) ∉ e)
    (d : Document) (h : fromStr s = .ok d) :
    ∃ b, OnLines d.preamable b ∧
      fromStr (enclosed x s) = .ok { Document.default with preamable := [.mk 1 (.environment (.mk x [] b [] []))] } := by
  have hd : tryFrom e = .ok d := by unfold fromStr at h; rwa [he] at h
  have hbody : ∀ c ∈ e, isBody c = false := by
    intro c hc
    obtain ⟨l, v⟩ := c
    cases v with
    | environment en =>
      obtain ⟨label, args, content, pb, pe⟩ := en
      by_cases hl : label = chars!"document"
      · subst hl; exact absurd hc (hb l args content pb pe)
      · simp [isBody, hl]
    | _ => rfl
  obtain ⟨m1, _⟩ := C45_no_body e d hd hbody
  obtain ⟨e', k1, k2⟩ := Ast2.C104 x s hx h1 h2 e he
  obtain ⟨b, k3, k4⟩ := maths_onLines k1 (fun c hc => (Ast2.level_lines he .top hc).1) m1
  refine ⟨b, k3, ?_⟩
  unfold fromStr
  rw [k2]
  have hm : mathsFromChunks [.mk 1 (.environment (.mk x [] e' [] []))] = .ok [.mk 1 (.environment (.mk x [] b [] []))] := by
    rw [mathsFromChunks_eq]
    simp [mathsLevel, mathsOutFrom, runMaths, stepMaths, MState.init, tryEnvironment, tryArgs, k4, finishMaths, paragraphs, paragraphChunk, paragraphs_maths k4]
  simp [tryFrom, runDocument, stepDocument, Ast2.Environment.label, hxd, hm, maths_nil, DState.init, DState.push,
    paragraphs, paragraphChunk, Document.default]

/-- C104 on `\item $b$`. -/
theorem C104_example :
    fromStr chars!"\\item $b$" = .ok { Document.default with preamable := [.mk 1 (.command (.mk chars!"item" [])), .mk 1 (.text chars!" "),
      .mk 1 (.mathsBlock (.mk .dollars .inline [.mk 1 (.text chars!"b")]))] } ∧
    fromStr (enclosed chars!"document" chars!"\\item $b$") = .ok { Document.default with body := [.mk 1 (.text chars!"\n"),
      .mk 2 (.command (.mk chars!"item" [])), .mk 2 (.text chars!" "), .mk 2 (.mathsBlock (.mk .dollars .inline [.mk 1 (.text chars!"b")])),
      .mk 2 (.text chars!"\n")] } :=
  ⟨by decide +kernel, by decide +kernel⟩

end LatexAst.Ast3
