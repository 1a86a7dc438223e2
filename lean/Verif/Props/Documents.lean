import Verif.Proofs.MathsStrict
import Verif.Proofs.Options3
import Verif.Proofs.Document3Facts
import Verif.Proofs.MathsText
import Verif.Model.Eq3
import Verif.Model.Fidelity

/-!
# Stage 3: documents (C35, C38, C39, C44, C45, C50)

`tryFrom` is `ast3::Document::try_from`, `fromStr` its `from_str`. Stated with `Verif.Spec.Document` and
`Verif.Spec.Maths`.
-/

namespace LatexAst.Ast3
open Spec

/-! ### C35 -/

theorem display_one_body {pre post : List Ast2.Chunk} {l args content pb pe} {f : Document}
    (h : tryFrom (pre ++ .mk l (.environment (.mk chars!"document" args content pb pe)) :: post) = .ok f)
    (hpre : ∀ c ∈ pre, isBody c = false) (hpost : ∀ c ∈ post, isBody c = false)
    (hd : ∀ cs out, (cs = pre ∨ cs = post ∨ cs = content ∨ ∃ p sv, (p, Ast2.Scope.mk cs sv) ∈ args) →
      mathsFromChunks cs = .ok out → displayChunks out = Ast2.displayChunks cs) :
    f.display = Ast2.displayChunks (pre ++ .mk l (.environment (.mk chars!"document" args content pb pb)) :: post) := by
  obtain ⟨pre', args', content', post', h1, h2, h3, h4, rfl⟩ := sections_body h hpre hpost
  have ha : displayArgs args' = Ast2.displayArgs args := by
    refine displayArgs_rel3 h2 (F := fun a b => a = b) rfl ?_ ?_
    · rintro p sv a b r r' rfl rfl; rfl
    · intro p inner sv out hm ho
      exact hd inner out (.inr (.inr (.inr ⟨p, sv, hm⟩))) ho
  rw [display_document, display2_append, Ast2.displayChunks, display_body2]
  simp only
  rw [hd pre pre' (.inl rfl) h1, hd post post' (.inr (.inl rfl)) h4, hd content content' (.inr (.inr (.inl rfl))) h3, ha]
  simp

/-- C35, what is proved: when the maths of every section is well formed in the strict sense (`Converts true`), the
document prints the same, provided the blanks after `\begin` and `\end` are the same. Missing: without these conditions
it is false, see `C35_false`. -/
theorem C35_partial (pre post : List Ast2.Chunk) (l : Nat) (args : List (Str × Ast2.Scope)) (content : List Ast2.Chunk)
    (pb : Str) (f : Document)
    (h : tryFrom (pre ++ .mk l (.environment (.mk chars!"document" args content pb pb)) :: post) = .ok f)
    (hpre : ∀ c ∈ pre, isBody c = false) (hpost : ∀ c ∈ post, isBody c = false)
    (hm : ∀ cs, (cs = pre ∨ cs = post ∨ cs = content ∨ ∃ p sv, (p, Ast2.Scope.mk cs sv) ∈ args) → ∃ out, Converts true cs out) :
    f.display = Ast2.displayChunks (pre ++ .mk l (.environment (.mk chars!"document" args content pb pb)) :: post) := by
  refine display_one_body h hpre hpost ?_
  intro cs out hcs ho
  obtain ⟨o, h1⟩ := hm cs hcs
  rw [mathsFromChunks_converts h1] at ho
  cases ho
  rw [display_paragraphs, display_converts h1]

theorem level_child {e inner lv : List Ast2.Chunk} (hc : Ast2.Child2 e inner) (h : Ast2.Level inner lv) : Ast2.Level e lv := by
  induction h with
  | top => exact Ast2.Level.child .top hc
  | scope _ hm ih => exact .scope ih hm
  | arg _ hm ha ih => exact .arg ih hm ha
  | envArg _ hm ha ih => exact .envArg ih hm ha
  | envContent _ hm ih => exact .envContent ih hm

theorem display_tryFrom_simple {pre post : List Ast2.Chunk} {l args content pb pe} {f : Document}
    (h : tryFrom (pre ++ .mk l (.environment (.mk chars!"document" args content pb pe)) :: post) = .ok f)
    (hpre : ∀ c ∈ pre, isBody c = false) (hpost : ∀ c ∈ post, isBody c = false)
    (hd : DollarFree (pre ++ .mk l (.environment (.mk chars!"document" args content pb pe)) :: post))
    (hs : Simple (pre ++ .mk l (.environment (.mk chars!"document" args content pb pe)) :: post)) :
    f.display = Ast2.displayChunks (pre ++ .mk l (.environment (.mk chars!"document" args content pb pb)) :: post) := by
  have hmem : Ast2.Chunk.mk l (.environment (.mk chars!"document" args content pb pe)) ∈
      pre ++ .mk l (.environment (.mk chars!"document" args content pb pe)) :: post := by simp
  refine display_one_body h hpre hpost ?_
  rintro cs out hcs ho
  refine display_simple ho ?_ ?_
  · rcases hcs with rfl | rfl | rfl | ⟨p, sv, hm⟩
    · exact dollarFree_mono hd (by intro c hc; simp [hc])
    · exact dollarFree_mono hd (by intro c hc; simp [hc])
    · exact dollarFree_child hd (.envContent hmem)
    · exact dollarFree_child hd (.envArg hmem hm)
  · rcases hcs with rfl | rfl | rfl | ⟨p, sv, hm⟩
    · exact simple_infix (a := []) (by simpa using hs)
    · exact simple_infix (a := pre ++ [.mk l (.environment (.mk chars!"document" args content pb pe))]) (c := []) (by simpa using hs)
    · exact simple_child hs (.envContent hmem)
    · exact simple_child hs (.envArg hmem hm)

theorem bare_parsed {s e} (h : Ast2.fromStr s = .ok e) {lv} (hl : Ast2.Level e lv) : Bare lv := by
  have h1 := (Ast2.allChunks_iff e).1 (Ast2.bareDelims_parsed h)
  have h2 : ∀ v, Ast2.Within lv v → Ast2.Within e v := by
    clear h h1
    induction hl with
    | top => intro v h; exact h
    | scope _ hm ih => intro v h; exact ih v (.scope hm h)
    | arg _ hm ha ih => intro v h; exact ih v (.arg hm ha h)
    | envArg _ hm ha ih => intro v h; exact ih v (.envArg hm ha h)
    | envContent _ hm ih => intro v h; exact ih v (.envContent hm h)
  intro l label args hm hlab
  exact h1 _ (h2 _ (.here hm)) label args rfl (isMathsLabel_iff'.2 hlab)

/-- C35 for sources without dollar signs and without `\(`, `\[` directly inside maths of the same kind: the stage-3
document prints as the stage-2 document, except that the blanks after the `\end` of `\end{document}` are those after
its `\begin`. -/
theorem C35_brackets_partial (s : Str) (e : Ast2.Document) (f : Document) (hs : Ast2.fromStr s = .ok e) (h : fromStr s = .ok f)
    (pre post : List Ast2.Chunk) (l : Nat) (args : List (Str × Ast2.Scope)) (content : List Ast2.Chunk) (pb pe : Str)
    (he : e = pre ++ .mk l (.environment (.mk chars!"document" args content pb pe)) :: post)
    (hpre : ∀ c ∈ pre, isBody c = false) (hpost : ∀ c ∈ post, isBody c = false)
    (hd : DollarFree e) (hn : ∀ lv, Ast2.Level e lv → ∀ k, ¬ SelfNested k lv) :
    f.display = Ast2.displayChunks (pre ++ .mk l (.environment (.mk chars!"document" args content pb pb)) :: post) := by
  have h' : tryFrom e = .ok f := by simpa [fromStr, hs] using h
  have hsimple : Simple e := fun lv hl => ⟨hn lv hl, bare_parsed hs hl⟩
  subst he
  exact display_tryFrom_simple h' hpre hpost hd hsimple

/-- C35 for a parsed document with one document environment: every character occurs in the printed document
as often as in the stage-2 document, except that backslashes and brackets may have been lost (the blanks after
`\end` being taken as those after `\begin`). In particular no dollar sign and no letter is lost or invented. -/
theorem C35_count_partial (s : Str) (e : Ast2.Document) (f : Document) (hs : Ast2.fromStr s = .ok e) (h : fromStr s = .ok f)
    (pre post : List Ast2.Chunk) (l : Nat) (args : List (Str × Ast2.Scope)) (content : List Ast2.Chunk) (pb pe : Str)
    (he : e = pre ++ .mk l (.environment (.mk chars!"document" args content pb pe)) :: post)
    (hpre : ∀ c ∈ pre, isBody c = false) (hpost : ∀ c ∈ post, isBody c = false) (a : Char) :
    f.display.count a ≤
      (Ast2.displayChunks (pre ++ .mk l (.environment (.mk chars!"document" args content pb pb)) :: post)).count a ∧
    (a ∉ ['\\', '(', ')', '[', ']'] → f.display.count a =
      (Ast2.displayChunks (pre ++ .mk l (.environment (.mk chars!"document" args content pb pb)) :: post)).count a) := by
  have h' : tryFrom e = .ok f := by simpa [fromStr, hs] using h
  have hb := Ast2.bareDelims_parsed hs
  subst he
  obtain ⟨pre', args', content', post', h1, h2, h3, h4, rfl⟩ := sections_body h' hpre hpost
  have kept : ∀ cs out, Ast2.AllChunks BareDelims cs → mathsFromChunks cs = .ok out →
      Kept a ((displayChunks out).count a) ((Ast2.displayChunks cs).count a) := by
    intro cs out hcs ho
    have := post_fromChunks (cs := cs) (E := fun _ => True) fun n => (mathsCount a n cs hcs).mono (fun _ h => h) (fun _ _ => .inr trivial)
    rw [ho] at this
    exact this
  rw [Ast2.allChunks_append] at hb
  obtain ⟨hb1, ⟨_, hb2, hb3⟩, hb4⟩ := hb
  have k1 := kept _ _ hb1 h1
  have k2 := kept _ _ hb3 h3
  have k3 := kept _ _ hb4 h4
  have k4 : Kept a ((displayArgs args').count a) ((Ast2.displayArgs args).count a) := by
    refine displayArgs_rel3 h2 (F := fun x y => Kept a (x.count a) (y.count a)) ⟨Nat.le_refl _, fun _ => rfl⟩ ?_ ?_
    · intro p sv x y r r' g1 g2
      constructor
      · have := g1.1; have := g2.1
        simp [List.count_cons]; omega
      · intro hd
        have := g1.2 hd; have := g2.2 hd
        simp [List.count_cons]; omega
    · intro p inner sv out hm ho
      exact kept _ _ ((Ast2.allArgs_iff_forall _).1 hb2 _ hm) ho
  rw [display_document, display2_append, Ast2.displayChunks, display_body2]
  simp only [List.count_append]
  have g1 := k1.1; have g2 := k2.1; have g3 := k3.1; have g4 := k4.1
  refine ⟨by omega, fun hd => ?_⟩
  have g1 := k1.2 hd; have g2 := k2.2 hd; have g3 := k3.2 hd; have g4 := k4.2 hd
  omega

/-- Without document environment an empty one is printed at the end. -/
theorem C35_no_body (e : Ast2.Document) (f : Document) (h : tryFrom e = .ok f) (hb : ∀ c ∈ e, isBody c = false)
    (hm : ∃ out, Converts true e out) : f.display = Ast2.displayChunks e ++ chars!"\\begin{document}\\end{document}" := by
  obtain ⟨pre, h1, rfl⟩ := sections_no_body h hb
  obtain ⟨o, ho⟩ := hm
  rw [mathsFromChunks_converts ho] at h1
  cases h1
  rw [display_document]
  simp [classDocument, Document.default, displayArgs, displayChunks, display_paragraphs, display_converts ho]

/-- C35 as stated is false of the code: text before a command in dollar maths is moved out of the maths, and the blanks
after `\end` are replaced. -/
theorem C35_false :
    (fromStr chars!"\\begin{document}$a\\alpha b$\\end{document}").map Document.display =
      .ok chars!"\\begin{document}a$\\alpha b$\\end{document}" ∧
    (fromStr chars!"\\begin{document}\\end {document}").map Document.display =
      .ok chars!"\\begin{document}\\end{document}" := by
  decide +kernel

/-- The test document of the repository meets the hypotheses. -/
example : (fromStr Fidelity.basicSrc3).map Document.display = .ok Fidelity.basicSrc3 := by decide +kernel

example : Converts true [.mk 1 (.text chars!"a $x$ "), .mk 1 (.command (.mk chars!"(" [])), .mk 1 (.text chars!"y"),
    .mk 1 (.command (.mk chars!")" []))]
    [.mk 1 (.text chars!"a "), .mk 1 (.mathsBlock (.mk .dollars .inline [.mk 1 (.text chars!"x")])), .mk 1 (.text chars!" "),
     .mk 1 (.mathsBlock (.mk .brackets .inline [.mk 1 (.text chars!"y")]))] :=
  .inline (p := chars!"a ") (x := chars!"x") (r := chars!" ") (by decide) (by decide) (by decide) (by decide)
    (.text (by decide) (.brackets (k := .inline) (body := [.mk 1 (.text chars!"y")]) (args := []) (args' := [])
      (.other (by intro args; simp [Ast2.Chunk.variant]) .nil) (by simp) (.text (by decide) .nil) .nil))

/-! ### C38 -/

/-- C38: the class is the printed curly argument of the `\documentclass` of the preamble, if there is one. -/
theorem C38 (e : Ast2.Document) (f : Document) (h : tryFrom e = .ok f) :
    f.documentclass.toList = classNames (classArgs (preambleOf e)) := by
  have hok := tryFrom_classesOk h
  obtain ⟨hb, he⟩ := preambleOf_spec e
  have hrun := run_preamble (s := DState.init) rfl hb rfl hok
  have hlen := hrun.2
  have hrun := hrun.1
  rw [init_read] at hrun
  have hc : f.documentclass = (classNames (classArgs (preambleOf e))).head? := by
    rcases he with he | ⟨l, args, content, pb, pe, rest, he⟩
    · obtain ⟨pre, _, hf⟩ := sections_no_body h (he ▸ hb)
      rw [hf, ← he]
      rfl
    · have h' := h
      unfold tryFrom at h'
      rw [he, runDocument_append, hrun] at h'
      simp only [runDocument, stepDocument, Ast2.Environment.label, if_true] at h'
      cases hr : tryEnvironment mathsFromChunks (.mk chars!"document" args content pb pe) with
      | error x => rw [hr] at h'; simp at h'
      | ok x =>
        rw [hr] at h'
        obtain ⟨_, args', content', pb', pe'⟩ := x
        simp only at h'
        split at h'
        · cases h'
        · rename_i s hs
          have ha := (run_after rfl hs).2.2.2.1
          split at h'
          · cases h'
          · split at h'
            · cases h'
            · injection h' with h'
              rw [← h']
              exact ha
  rw [hc]
  match h0 : classNames (classArgs (preambleOf e)), hlen with
  | [], _ => rfl
  | [x], _ => rfl
  | x :: y :: r, hlen => simp at hlen

/-- The failures of the maths part. -/
def MathsFailure (f : Fail) : Prop := f = .panic ∨ ∃ l, f = .err ⟨l, .unexpectedMathsEnd⟩ ∨ f = .err ⟨l, .unclosedMaths⟩

theorem spec_maths : FailSpec (fun _ => True) MathsFailure :=
  ⟨fun _ l _ _ => .inr ⟨l, .inl rfl⟩, fun _ l _ _ => .inr ⟨l, .inr rfl⟩,
    .inr ⟨.inr ⟨0, .inr rfl⟩, .inl rfl, fun _ _ => trivial, fun _ _ _ _ _ => trivial⟩⟩

/-- C38: a `\documentclass` after one that names a class is exactly what gives `DoubleDocumentClass`. -/
theorem C38_double (e : Ast2.Document) (l : Nat) :
    tryFrom e = .error (.err ⟨l, .doubleDocumentClass⟩) ↔
      ∃ a args b, preambleOf e = a ++ .mk l (.command (.mk chars!"documentclass" args)) :: b ∧ ClassesOk a ∧
        classNames (classArgs a) ≠ [] := by
  obtain ⟨hb, he⟩ := preambleOf_spec e
  constructor
  · intro h
    rcases fail_tryFrom (e := e) spec_maths (fun _ _ _ _ => trivial) with ⟨f, hf, a, l', args, b, h1, h2, h3⟩ | ⟨_, h2⟩
    · rw [h] at hf
      injection hf with hf
      subst hf
      rcases h3 with ⟨h3, h4⟩ | ⟨h3, _⟩
      · simp at h3; subst h3; exact ⟨a, args, b, h1, h2, h4⟩
      · simp at h3
    · rw [h] at h2
      rcases h2 with h2 | ⟨_, h2 | h2⟩ <;> simp at h2
  · rintro ⟨a, args, b, h1, h2, h3⟩
    obtain ⟨rest, hr⟩ : ∃ rest, e = preambleOf e ++ rest := by
      rcases he with he | ⟨l, args, content, pb, pe, rest, he⟩
      · exact ⟨[], by simpa using he⟩
      · exact ⟨_, he⟩
    rw [h1] at hr hb
    rw [hr]
    exact (tryFrom_class_error (fun c hc => hb c (by simp [hc])) h2).1 h3

/-- C38: a `\documentclass` with two curly arguments, when no class was named before, is exactly what gives
`TooManyArgsDocumentClass`. -/
theorem C38_too_many (e : Ast2.Document) (l : Nat) :
    tryFrom e = .error (.err ⟨l, .tooManyArgsDocumentClass⟩) ↔
      ∃ a args b, preambleOf e = a ++ .mk l (.command (.mk chars!"documentclass" args)) :: b ∧ ClassesOk a ∧
        classNames (classArgs a) = [] ∧ 2 ≤ (classNames args).length := by
  obtain ⟨hb, he⟩ := preambleOf_spec e
  constructor
  · intro h
    rcases fail_tryFrom (e := e) spec_maths (fun _ _ _ _ => trivial) with ⟨f, hf, a, l', args, b, h1, h2, h3⟩ | ⟨_, h2⟩
    · rw [h] at hf
      injection hf with hf
      subst hf
      rcases h3 with ⟨h3, _⟩ | ⟨h3, h4⟩
      · simp at h3
      · simp at h3; subst h3; exact ⟨a, args, b, h1, h2, h4⟩
    · rw [h] at h2
      rcases h2 with h2 | ⟨_, h2 | h2⟩ <;> simp at h2
  · rintro ⟨a, args, b, h1, h2, h3, h4⟩
    obtain ⟨rest, hr⟩ : ∃ rest, e = preambleOf e ++ rest := by
      rcases he with he | ⟨l, args, content, pb, pe, rest, he⟩
      · exact ⟨[], by simpa using he⟩
      · exact ⟨_, he⟩
    rw [h1] at hr hb
    rw [hr]
    exact (tryFrom_class_error (fun c hc => hb c (by simp [hc])) h2).2 h3 h4

/-- C38: the other errors are those of the maths. -/
theorem C38_errors (e : Ast2.Document) (x : Error) (h : tryFrom e = .error (.err x)) :
    x.type ∈ [.doubleDocumentClass, .tooManyArgsDocumentClass, .unexpectedMathsEnd, .unclosedMaths] := by
  rcases fail_tryFrom (e := e) spec_maths (fun _ _ _ _ => trivial) with ⟨f, hf, a, l', args, b, h1, h2, h3⟩ | ⟨_, h2⟩
  · rw [h] at hf
    injection hf with hf
    subst hf
    rcases h3 with ⟨h3, _⟩ | ⟨h3, _⟩ <;> (injection h3 with h3; subst h3; simp)
  · rw [h] at h2
    rcases h2 with h2 | ⟨_, h2 | h2⟩
    · cases h2
    · injection h2 with h2; subst h2; simp
    · injection h2 with h2; subst h2; simp

example : (fromStr chars!"\\documentclass[a4paper]{art\\x icle}a").map (·.documentclass) = .ok (some chars!"art\\x icle") ∧
    fromStr chars!"\\documentclass{a}\n\\documentclass{b}" = .error (.err ⟨2, .doubleDocumentClass⟩) ∧
    fromStr chars!"\\documentclass{a}{b}" = .error (.err ⟨1, .tooManyArgsDocumentClass⟩) ∧
    (fromStr chars!"\\documentclass[x]\\begin{document}\\documentclass{a}\\end{document}").map (·.documentclass) = .ok none := by
  decide +kernel

/-! ### C39 -/

/-- The options of a document, in order, are those read from the pieces between commas of the non-curly arguments of
`\documentclass`; how one piece is read is said in `C39_partial`. -/
theorem C39_split (e : Ast2.Document) (f : Document) (h : tryFrom e = .ok f) :
    ∃ pieces : List (List Str), pieces.map [','].intercalate = optionLists (classArgs (preambleOf e)) ∧
      (∀ ps ∈ pieces, ps ≠ [] ∧ ∀ p ∈ ps, ',' ∉ p) ∧ f.documentoptions = pieces.flatten.map parseOption := by
  have hok := tryFrom_classesOk h
  obtain ⟨hb, he⟩ := preambleOf_spec e
  have hrun := (run_preamble (s := DState.init) rfl hb rfl hok).1
  rw [init_read] at hrun
  have hc : f.documentoptions = (optionLists (classArgs (preambleOf e))).flatMap readOptions := by
    rcases he with he | ⟨l, args, content, pb, pe, rest, he⟩
    · obtain ⟨pre, _, hf⟩ := sections_no_body h (he ▸ hb)
      rw [hf, ← he]
      rfl
    · have h' := h
      unfold tryFrom at h'
      rw [he, runDocument_append, hrun] at h'
      simp only [runDocument, stepDocument, Ast2.Environment.label, if_true] at h'
      cases hr : tryEnvironment mathsFromChunks (.mk chars!"document" args content pb pe) with
      | error x => rw [hr] at h'; simp at h'
      | ok x =>
        rw [hr] at h'
        obtain ⟨_, args', content', pb', pe'⟩ := x
        simp only at h'
        split at h'
        · cases h'
        · rename_i s hs
          have ha := (run_after rfl hs).2.2.2.2.1
          split at h'
          · cases h'
          · split at h'
            · cases h'
            · injection h' with h'
              rw [← h']
              exact ha
  refine ⟨(optionLists (classArgs (preambleOf e))).map splitComma, ?_, ?_, ?_⟩
  · rw [List.map_map]
    conv => rhs; rw [← List.map_id (optionLists (classArgs (preambleOf e)))]
    congr 1
    funext s
    exact (splitComma_spec s).2.1
  · intro ps hps
    obtain ⟨s, _, rfl⟩ := List.mem_map.1 hps
    exact ⟨(splitComma_spec s).1, (splitComma_spec s).2.2⟩
  · rw [hc]
    generalize optionLists (classArgs (preambleOf e)) = L
    induction L with
    | nil => rfl
    | cons s L ih => simp [readOptions, ih]

/-- C39, what is proved: how one option `o` is read. A blank option is all trailing blanks. Otherwise `o` is blanks `w`,
a first character `c`, more characters `a`, trailing blanks `b`, and `c` IS LOST; if `a` contains `=`, the part before
it is the key and its trailing blanks, and what is recorded as the value comes from the key, the actual value `v` IS
LOST. Missing: that the parts concatenate to the option as written, which is false (`C39_false`). -/
theorem C39_partial (o : Str) :
    (Blank o ∧ parseOption o = ([], [], none, o)) ∨
    (∃ w c a b, o = w ++ c :: (a ++ b) ∧ Blank w ∧ isWhitespace c = false ∧ Blank b ∧ NoTrailingBlank a ∧
      ('=' ∉ a → parseOption o = (w, a, none, b)) ∧
      (∀ k e v, a = k ++ e ++ '=' :: v → '=' ∉ k ++ e → Blank e → NoTrailingBlank k →
        parseOption o = (w, k, some (e, (k ++ e).filter isWhitespace, (k ++ e).filter fun c => !isWhitespace c), b))) := by
  rcases option_cases o with h | ⟨w, c, a, b, rfl, hw, hc, hb, ha⟩
  · exact .inl ⟨h, parseOption_blank h⟩
  · exact .inr ⟨w, c, a, b, rfl, hw, hc, hb, ha, parseOption_dark hw hc hb ha⟩

/-- C39 as stated is false of the code. -/
theorem C39_false : (fromStr chars!"\\documentclass[ 12pt , key = v]{a}").map (·.documentoptions) =
      .ok [(chars!" ", chars!"2pt", none, chars!" "),
        (chars!" ", chars!"ey", some (chars!" ", chars!" ", chars!"ey"), [])] ∧
    DocOption.source (parseOption chars!" 12pt ") ≠ chars!" 12pt " := by
  decide +kernel

example : parseOption chars!" key = v " = (chars!" ", chars!"ey", some (chars!" ", chars!" ", chars!"ey"), chars!" ") ∧
    parseOption chars!" \n" = ([], [], none, chars!" \n") := by decide +kernel

/-! ### C44 -/

/-- C44: no `\begin`, `\end` or maths delimiter command in any section or body argument of the result. -/
theorem C44 (e : Ast2.Document) (f : Document) (h : tryFrom e = .ok f)
    (he : ∀ label args, Ast2.Within e (.command (.mk label args)) → label ≠ chars!"begin" ∧ label ≠ chars!"end")
    (cs : List Chunk) (hcs : cs = f.preamable ∨ cs = f.body ∨ cs = f.trailing ∨ ∃ p sv, (p, Scope.mk cs sv) ∈ f.bodyArgs)
    (label : Str) (args : List (Str × Scope)) (hw : Within cs (.command (.mk label args))) :
    label ∉ [chars!"begin", chars!"end", chars!"(", chars!")", chars!"[", chars!"]"] := by
  have hc : Carries (fun _ => True) (fun v => ∀ label args, v = .command (.mk label args) → label ≠ chars!"begin" ∧ label ≠ chars!"end")
      (fun v => ∀ label args, v = .command (.mk label args) →
        label ∉ [chars!"begin", chars!"end", chars!"(", chars!")", chars!"[", chars!"]"]) := by
    refine ⟨?_, ?_, ?_, ?_, ?_, ?_, ?_⟩
    · intro t; simp
    · intro _ _ _ _ _ _ h; cases h
    · intro label args args' h1 h2 label' args'' h3
      cases h3
      have := h1 label args rfl
      rw [isMathsLabel_iff] at h2
      grind
    · intro _ _ _ _ _ _ _ _ _ _ h; cases h
    · intro _ _ _ _ _ h; cases h
    · intro _ _ _ _ _ h; cases h
    · intro _ _ _ _ _ h; cases h
  obtain ⟨h1, h2, h3, h4⟩ := nodes_tryFrom hc ((Ast2.allChunks_iff e).2 (by rintro v hv label args rfl; exact he _ _ hv)) h
  rcases hcs with rfl | rfl | rfl | ⟨p, sv, hm⟩
  · exact (allChunks_iff _).1 h1 _ hw _ _ rfl
  · exact (allChunks_iff _).1 h2 _ hw _ _ rfl
  · exact (allChunks_iff _).1 h4 _ hw _ _ rfl
  · exact (allChunks_iff _).1 ((allArgs_iff_forall _).1 h3 _ hm) _ hw _ _ rfl

theorem fromStr_ok {s f} (h : fromStr s = .ok f) : ∃ d e, Ast1.fromStr s = .ok d ∧ Ast2.tryFrom d = .ok e ∧ Ast2.fromStr s = .ok e ∧ tryFrom e = .ok f := by
  unfold fromStr at h
  cases h2 : Ast2.fromStr s with
  | error x => rw [h2] at h; cases h
  | ok e =>
    rw [h2] at h
    have h3 := h2
    unfold Ast2.fromStr at h3
    cases hd : Ast1.fromStr s with
    | error x => rw [hd] at h3; cases h3
    | ok d => rw [hd] at h3; exact ⟨d, e, rfl, h3, rfl, h⟩

/-- C44 for every parsed document. -/
theorem C44_source (s : Str) (f : Document) (h : fromStr s = .ok f)
    (cs : List Chunk) (hcs : cs = f.preamable ∨ cs = f.body ∨ cs = f.trailing ∨ ∃ p sv, (p, Scope.mk cs sv) ∈ f.bodyArgs)
    (label : Str) (args : List (Str × Scope)) (hw : Within cs (.command (.mk label args))) :
    label ∉ [chars!"begin", chars!"end", chars!"(", chars!")", chars!"[", chars!"]"] := by
  obtain ⟨d, e, _, h2, _, h3⟩ := fromStr_ok h
  exact C44 e f h3 (fun label args => Ast2.C22 d e h2 label args) cs hcs label args hw

example : Within Fidelity.basicAst3.body (.command (.mk chars!"item" [])) := by
  refine .envContent (l := 3) (label := chars!"itemize") (.tail _ (.head _)) (.here (.tail _ (.head _)))

/-! ### C45 -/

/-- C45 without document environment: everything is preamable. -/
theorem C45_no_body (e : Ast2.Document) (f : Document) (h : tryFrom e = .ok f) (hb : ∀ c ∈ e, isBody c = false) :
    mathsFromChunks e = .ok f.preamable ∧ f.body = [] ∧ f.trailing = [] ∧ f.bodyArgs = [] ∧
      f.bodyBeginPrec = [] ∧ f.bodyEndPrec = [] := by
  obtain ⟨pre, h1, rfl⟩ := sections_no_body h hb
  exact ⟨h1, rfl, rfl, rfl, rfl, rfl⟩

/-- C45, what is proved: with exactly one document environment, the sections are the converted parts before, in and
after it, its arguments and blanks are kept. Missing: with two, the first is lost (`C45_false`). -/
theorem C45_partial (pre post : List Ast2.Chunk) (l : Nat) (args : List (Str × Ast2.Scope)) (content : List Ast2.Chunk)
    (pb pe : Str) (f : Document)
    (h : tryFrom (pre ++ .mk l (.environment (.mk chars!"document" args content pb pe)) :: post) = .ok f)
    (hpre : ∀ c ∈ pre, isBody c = false) (hpost : ∀ c ∈ post, isBody c = false) :
    mathsFromChunks pre = .ok f.preamable ∧ mathsFromChunks content = .ok f.body ∧ mathsFromChunks post = .ok f.trailing ∧
    f.bodyBeginPrec = pb ∧ f.bodyEndPrec = pe ∧ f.bodyArgs.length = args.length ∧
    ∀ i (hi : i < args.length) (hi' : i < f.bodyArgs.length) p inner sv, args[i] = (p, .mk inner sv) →
      ∃ cs, mathsFromChunks inner = .ok cs ∧ f.bodyArgs[i] = (p, .mk cs sv) := by
  obtain ⟨pre', args', content', post', h1, h2, h3, h4, rfl⟩ := sections_body h hpre hpost
  have key : Post (tryArgs mathsFromChunks args) (fun r => r.length = args.length ∧
      ∀ i (hi : i < args.length) (hi' : i < r.length) p inner sv, args[i] = (p, .mk inner sv) →
      ∃ cs, mathsFromChunks inner = .ok cs ∧ r[i] = (p, .mk cs sv)) (fun _ => True) := by
    refine post_args (args := args) (Q := fun a r => r.length = a.length ∧
      ∀ i (hi : i < a.length) (hi' : i < r.length) p inner sv, a[i] = (p, .mk inner sv) →
      ∃ cs, mathsFromChunks inner = .ok cs ∧ r[i] = (p, .mk cs sv)) ⟨rfl, by intro i hi; simp at hi⟩ ?_
    intro p inner sv r hm
    cases hr : mathsFromChunks inner with
    | error f => trivial
    | ok out =>
      rintro r' ⟨g1, g2⟩
      refine ⟨by simp [g1], ?_⟩
      intro i hi hi' q inner' sv' he
      cases i with
      | zero =>
        simp at he
        obtain ⟨rfl, rfl, rfl⟩ := he
        exact ⟨out, hr, by simp [mathsFromChunks_split hr]⟩
      | succ i =>
        exact g2 i (by simpa using hi) (by simpa using hi') q inner' sv' (by simpa using he)
  rw [h2] at key
  exact ⟨h1, h3, h4, rfl, rfl, key.1, key.2⟩

/-- C45 as stated is false of the code: of two document environments the first disappears. -/
theorem C45_false : (fromStr chars!"\\begin{document}a\\end{document}\\begin{document}b\\end{document}").map
    (fun d => (d.preamable, d.body, d.trailing)) = .ok ([], [.mk 1 (.text chars!"b")], []) := by decide +kernel

example : ∃ pre l args content pb pe, ∃ post : List Ast2.Chunk, Ast2.fromStr Fidelity.basicSrc3 =
    .ok (pre ++ .mk l (.environment (.mk chars!"document" args content pb pe)) :: post) ∧
    (∀ c ∈ pre, isBody c = false) ∧ pre.length = 4 := by
  refine ⟨(match Ast2.fromStr Fidelity.basicSrc3 with | .ok e => preambleOf e | _ => []), 5, [],
    (match Ast2.fromStr Fidelity.basicSrc3 with
      | .ok e => (match e.getLast? with | some (.mk _ (.environment (.mk _ _ c _ _))) => c | _ => [])
      | _ => []), [], [], [], ?_, ?_, ?_⟩ <;> decide +kernel

/-! ### C50 -/

/-- C50: in a parsed stage-3 document no text is empty, contains a dollar sign or a paragraph gap, and every paragraph
break starts at a newline, is blank and has two newlines or more. -/
theorem C50 (s : Str) (f : Document) (h : fromStr s = .ok f)
    (cs : List Chunk) (hcs : cs = f.preamable ∨ cs = f.body ∨ cs = f.trailing ∨ ∃ p sv, (p, Scope.mk cs sv) ∈ f.bodyArgs) :
    (∀ t, Within cs (.text t) → t ≠ [] ∧ '$' ∉ t ∧ ¬ ParagraphGap t ∧ ∀ c ∈ t, c ∉ ['\\', '%', '{', '[', '(']) ∧
    (∀ b, Within cs (.paragraphBreak b) → (∃ r, b = '\n' :: r) ∧ Blank b ∧ 2 ≤ b.count '\n') := by
  obtain ⟨d, e, h1, h2, _, h3⟩ := fromStr_ok h
  have hc : Carries Ast1.TextChar (fun v => ∀ t, v = .text t → ∀ c ∈ t, Ast1.TextChar c)
      (fun v => (∀ t, v = .text t → t ≠ [] ∧ '$' ∉ t ∧ ¬ ParagraphGap t ∧ ∀ c ∈ t, c ∉ ['\\', '%', '{', '[', '(']) ∧
        (∀ b, v = .paragraphBreak b → (∃ r, b = '\n' :: r) ∧ Blank b ∧ 2 ≤ b.count '\n')) := by
    refine ⟨?_, ?_, ?_, ?_, ?_, ?_, ?_⟩
    · intro t; simp
    · intro _ _ _ _; simp
    · intro _ _ _ _; simp
    · intro _ _ _ _ _ _ _ _; simp
    · intro _ _ _; simp
    · intro t ht hp
      refine ⟨?_, by simp⟩
      rintro t' he
      cases he
      exact ⟨hp.1, fun hm => (ht _ hm).2 rfl, hp.2, fun c hc => (ht c hc).1⟩
    · intro b hb _
      refine ⟨by simp, ?_⟩
      rintro b' he
      cases he
      exact hb
  have hP1 : Ast1.AllChunks (fun v => ∀ t, v = .text t → ∀ c ∈ t, Ast1.TextChar c) d := by
    refine Ast2.nodes_parsed1 h1 ?_
    rintro l v hn t rfl
    exact hn.2
  have hP2 : Ast2.AllChunks (fun v => ∀ t, v = .text t → ∀ c ∈ t, Ast1.TextChar c) e := by
    refine Ast2.carry_tryFrom ⟨?_, ?_, ?_, ?_⟩ h2 hP1
    · intro t h t' h'; cases h'; exact h t rfl
    · intro _ _ _ _; simp
    · intro _ _ _ _ _ _ _; simp
    · intro _ _ _ _ _ _ _ _ _; simp
  obtain ⟨g1, g2, g3, g4⟩ := nodes_tryFrom hc hP2 h3
  have key : AllChunks (fun v => (∀ t, v = .text t → t ≠ [] ∧ '$' ∉ t ∧ ¬ ParagraphGap t ∧ ∀ c ∈ t, c ∉ ['\\', '%', '{', '[', '(']) ∧
        (∀ b, v = .paragraphBreak b → (∃ r, b = '\n' :: r) ∧ Blank b ∧ 2 ≤ b.count '\n')) cs := by
    rcases hcs with rfl | rfl | rfl | ⟨p, sv, hm⟩
    · exact g1
    · exact g2
    · exact g4
    · exact (allArgs_iff_forall _).1 g3 _ hm
  exact ⟨fun t ht => ((allChunks_iff _).1 key _ ht).1 t rfl, fun b hb => ((allChunks_iff _).1 key _ hb).2 b rfl⟩

end LatexAst.Ast3
