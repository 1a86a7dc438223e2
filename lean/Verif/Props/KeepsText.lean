import Verif.Proofs.KeepsText
import Verif.Props.Documents
import Verif.Props.Verbatim
import Verif.Proofs.Conv2Facts

/-!
# C35, exactly: when stage 3 keeps the text

`Spec/KeepsText.lean` defines `KeepsText`, by the maths in the stage-2 chunks alone.
-/

namespace LatexAst.Ast3

/-- C35, for a sequence of chunks, exactly: the converted chunks print as the chunks if and only if no text is left behind
by a dollar formula, every display formula is closed by two adjacent dollar signs, and no bracket delimiter lies in
maths of its own kind or has arguments. -/
theorem C35_maths_exact_partial (cs : List Ast2.Chunk) (out : List Chunk) (h : mathsFromChunks cs = .ok out) :
    displayChunks out = Ast2.displayChunks cs ↔ KeepsText cs := mathsFromChunks_keeps h

theorem tryArgs_keeps {args : List (Str × Ast2.Scope)} {args'} (h : tryArgs mathsFromChunks args = .ok args') :
    (displayArgs args').length ≤ (Ast2.displayArgs args).length ∧
    (displayArgs args' = Ast2.displayArgs args ↔ ∀ x ∈ args, KeepsText x.2.chunks) := by
  induction args generalizing args' with
  | nil => simp [tryArgs] at h; subst h; simp [displayArgs]
  | cons x r ih =>
    obtain ⟨p, ⟨inner, sv⟩⟩ := x
    simp only [tryArgs, tryScope] at h
    cases h1 : mathsFromChunks inner with
    | error f => simp [h1] at h
    | ok out =>
      cases h2 : tryArgs mathsFromChunks r with
      | error f => simp [h1, h2] at h
      | ok r' =>
        simp [h1, h2] at h
        subst h
        obtain ⟨g1, g2⟩ := ih h2
        have g3 := mathsFromChunks_le h1
        have g4 := mathsFromChunks_keeps h1
        simp only [displayArgs, Ast2.displayArgs, Scope.display, Ast2.Scope.display, display_paragraphs]
        refine ⟨by simp; omega, ?_⟩
        constructor
        · intro he
          simp only [List.append_cancel_left_eq, List.cons_append, List.cons.injEq, true_and, List.append_assoc,
            List.nil_append] at he
          have e := append_eq_of_le he g3 (by simp; exact g1)
          intro y hy
          rcases List.mem_cons.1 hy with rfl | hy
          · exact g4.1 e.1
          · exact g2.1 (List.cons.inj e.2).2 y hy
        · intro hk
          have e1 := g4.2 (hk _ (.head _))
          have e2 := g2.2 fun y hy => hk y (.tail _ hy)
          rw [e1, e2]

/-- C35, exactly, for a document with one document environment (in which the blanks after `\begin` and `\end` are the
same): the stage-3 document prints the same if and only if the maths of each of its parts is kept. -/
theorem C35_exact_partial (pre post : List Ast2.Chunk) (l : Nat) (args : List (Str × Ast2.Scope)) (content : List Ast2.Chunk)
    (pb : Str) (f : Document)
    (h : tryFrom (pre ++ .mk l (.environment (.mk chars!"document" args content pb pb)) :: post) = .ok f)
    (hpre : ∀ c ∈ pre, isBody c = false) (hpost : ∀ c ∈ post, isBody c = false) :
    f.display = Ast2.displayChunks (pre ++ .mk l (.environment (.mk chars!"document" args content pb pb)) :: post) ↔
      KeepsText pre ∧ (∀ x ∈ args, KeepsText x.2.chunks) ∧ KeepsText content ∧ KeepsText post := by
  obtain ⟨pre', args', content', post', h1, h2, h3, h4, rfl⟩ := sections_body h hpre hpost
  have k1 := mathsFromChunks_keeps h1
  have k2 := tryArgs_keeps h2
  have k3 := mathsFromChunks_keeps h3
  have k4 := mathsFromChunks_keeps h4
  have l1 := mathsFromChunks_le h1
  have l3 := mathsFromChunks_le h3
  have l4 := mathsFromChunks_le h4
  rw [display_document, display2_append, Ast2.displayChunks, display_body2, ← k1, ← k2.2, ← k3, ← k4]
  simp only [List.append_assoc]
  constructor
  · intro he
    have e1 := append_eq_of_le he l1 (by have := k2.1; simp; omega)
    have e2 := e1.2
    simp only [List.append_cancel_left_eq] at e2
    have e2 := append_eq_of_le e2 k2.1 (by simp; omega)
    have e3 := append_eq_of_le e2.2 l3 (by simp; omega)
    have e4 := e3.2
    simp only [List.append_cancel_left_eq] at e4
    exact ⟨e1.1, e2.1, e3.1, e4⟩
  · rintro ⟨e1, e2, e3, e4⟩
    rw [e1, e2, e3, e4]

/-- C35, exactly, without document environment: an empty one is printed at the end. -/
theorem C35_no_body_exact (e : Ast2.Document) (f : Document) (h : tryFrom e = .ok f) (hb : ∀ c ∈ e, isBody c = false) :
    f.display = Ast2.displayChunks e ++ chars!"\\begin{document}\\end{document}" ↔ KeepsText e := by
  obtain ⟨pre, h1, rfl⟩ := sections_no_body h hb
  rw [display_document, ← mathsFromChunks_keeps h1]
  simp [classDocument, Document.default, displayArgs, displayChunks]

/-- C35: converting never makes the text longer. -/
theorem C35_length_partial (pre post : List Ast2.Chunk) (l : Nat) (args : List (Str × Ast2.Scope)) (content : List Ast2.Chunk)
    (pb pe : Str) (f : Document)
    (h : tryFrom (pre ++ .mk l (.environment (.mk chars!"document" args content pb pe)) :: post) = .ok f)
    (hpre : ∀ c ∈ pre, isBody c = false) (hpost : ∀ c ∈ post, isBody c = false) :
    f.display.length + pe.length ≤
      (Ast2.displayChunks (pre ++ .mk l (.environment (.mk chars!"document" args content pb pe)) :: post)).length + pb.length := by
  obtain ⟨pre', args', content', post', h1, h2, h3, h4, rfl⟩ := sections_body h hpre hpost
  have k2 := (tryArgs_keeps h2).1
  have l1 := mathsFromChunks_le h1
  have l3 := mathsFromChunks_le h3
  have l4 := mathsFromChunks_le h4
  rw [display_document, display2_append, Ast2.displayChunks, display_body2]
  simp
  omega

/-- C35 for sources: a source that stage 1 prints back (`Verbatim`) and that has one document environment is printed back by
stage 3 if and only if its maths is kept. -/
theorem C35_source_partial (s : Str) (e : Ast2.Document) (f : Document) (hv : Ast1.Verbatim s) (hs : Ast2.fromStr s = .ok e)
    (h : fromStr s = .ok f) (pre post : List Ast2.Chunk) (l : Nat) (args : List (Str × Ast2.Scope))
    (content : List Ast2.Chunk) (pb : Str)
    (he : e = pre ++ .mk l (.environment (.mk chars!"document" args content pb pb)) :: post)
    (hpre : ∀ c ∈ pre, isBody c = false) (hpost : ∀ c ∈ post, isBody c = false) :
    f.display = s ↔ KeepsText pre ∧ (∀ x ∈ args, KeepsText x.2.chunks) ∧ KeepsText content ∧ KeepsText post := by
  obtain ⟨d, e', h1, h2, h3, h4⟩ := fromStr_ok h
  rw [hs] at h3
  cases h3
  have hd : Ast2.displayChunks e = s := by
    have h5 := (Ast1.C01_same_partial s d h1).2 hv
    rw [← h5]
    exact Ast2.display_tryFrom h2
  rw [← hd, he]
  rw [he] at h4
  exact C35_exact_partial pre post l args content pb f h4 hpre hpost

/-- `KeepsText` holds of a display formula with a command in it, and of bracket maths with a formula in it. -/
theorem C35_keeps_example : KeepsText [.mk 1 (.text chars!"a $$"), .mk 1 (.command (.mk chars!"alpha" [])), .mk 1 (.text chars!" b$$ c"),
    .mk 1 (.command (.mk chars!"(" [])), .mk 1 (.text chars!"x$y$"), .mk 1 (.command (.mk chars!")" []))] := by
  refine .display (q := chars!"a ") (r := chars!"$") (p₁ := ⟨1, [], [], _⟩)
    (kept := [.mk 1 (.command (.mk chars!"alpha" []))]) (p₂ := ⟨1, chars!" b", chars!"$ c", _⟩) (p₃ := ⟨1, chars!" b", chars!" c", _⟩)
    (by decide) (.here (q := []) (x := []) (by simp)) rfl
    (.later (q := []) (x := []) (ms := [.mk 1 (.command (.mk chars!"alpha" []))]) (lost := []) (kept := []) (by simp)
      (by intro m hm; simp only [List.mem_singleton] at hm; subst hm; intro t h; cases h)
      (.here (q := []) (x := chars!" b") (by decide)))
    (.here (x := []) (q := chars!" b") (by simp)) rfl ?_ ?_
  · exact .command (by decide) (by simp) (.text (by decide) .nil)
  · refine .text (by decide) (.brackets (k := .inline) (body := [.mk 1 (.text chars!"x$y$")]) ?_ ?_ .nil)
    · intro c hc
      simp only [List.mem_singleton] at hc
      subst hc
      intro args
      simp [Ast2.Chunk.variant]
    · exact .inline (q := chars!"x") (r := chars!"y$") (p := ⟨1, chars!"y", [], []⟩) (kept := []) (by decide)
        (.here (q := []) (x := chars!"y") (r := []) (by decide)) (.inr (by simp)) (.text (by decide) .nil) (.text (by simp) .nil)

/-- So it is printed as it was. -/
example : (mathsFromChunks [.mk 1 (.text chars!"a $$"), .mk 1 (.command (.mk chars!"alpha" [])), .mk 1 (.text chars!" b$$ c"),
    .mk 1 (.command (.mk chars!"(" [])), .mk 1 (.text chars!"x$y$"), .mk 1 (.command (.mk chars!")" []))]).map displayChunks =
    .ok chars!"a $$\\alpha b$$ c\\(x$y$\\)" := by
  decide +kernel

/-- And it does not hold where text is moved or dropped. -/
example : ¬ KeepsText [.mk 1 (.text chars!"$a"), .mk 1 (.command (.mk chars!"alpha" [])), .mk 1 (.text chars!" b$")] ∧
    ¬ KeepsText [.mk 1 (.text chars!"$$a$b$")] := by
  have h1 : mathsFromChunks [.mk 1 (.text chars!"$a"), .mk 1 (.command (.mk chars!"alpha" [])), .mk 1 (.text chars!" b$")] =
    .ok [.mk 1 (.text chars!"a"), .mk 1 (.mathsBlock (.mk .dollars .inline
      [.mk 1 (.command (.mk chars!"alpha" [])), .mk 1 (.text chars!" b")]))] := by decide +kernel
  have h2 : mathsFromChunks [.mk 1 (.text chars!"$$a$b$")] =
    .ok [.mk 1 (.mathsBlock (.mk .dollars .outline [.mk 1 (.text chars!"ab")]))] := by decide +kernel
  exact ⟨fun h => absurd ((C35_maths_exact_partial _ _ h1).2 h) (by decide),
    fun h => absurd ((C35_maths_exact_partial _ _ h2).2 h) (by decide)⟩

end LatexAst.Ast3
