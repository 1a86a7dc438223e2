import Verif.Props.Written
import Verif.Props.KeepsText
import Verif.Model.Eq3

/-!
# C72: a stage-3 document is read back from its printed form
-/

namespace LatexAst.Ast3

/-- C72, where it holds: the stage-3 document of a canonical stage-2 document with one document environment, whose maths
is kept (`KeepsText`, the exact condition for C35), is read back from its printed form. -/
theorem C72_partial (pre post : List Ast2.Chunk) (l : Nat) (args : List (Str × Ast2.Scope)) (content : List Ast2.Chunk)
    (pb : Str) (f : Document)
    (h : tryFrom (pre ++ .mk l (.environment (.mk chars!"document" args content pb pb)) :: post) = .ok f)
    (hpre : ∀ c ∈ pre, isBody c = false) (hpost : ∀ c ∈ post, isBody c = false)
    (hc : Ast2.Canonical (pre ++ .mk l (.environment (.mk chars!"document" args content pb pb)) :: post))
    (hk : KeepsText pre ∧ (∀ x ∈ args, KeepsText x.2.chunks) ∧ KeepsText content ∧ KeepsText post) :
    fromStr f.display = .ok f := by
  have hd := (C35_exact_partial pre post l args content pb f h hpre hpost).2 hk
  have h1 := (Ast2.C71 _).2 hc
  rw [hd]
  unfold fromStr
  rw [h1]
  exact h

/-- C72 for parsed documents: the conditions on the source are those of stage 1 (C14) and of the maths (C35). -/
theorem C72_parsed_partial (s : Str) (d : Ast1.Document) (e : Ast2.Document) (f : Document)
    (hd : Ast1.fromStr s = .ok d) (he : Ast2.fromStr s = .ok e) (hf : fromStr s = .ok f)
    (h1 : Ast1.NoScopeInCurlyArgument d) (h2 : Ast1.NoCloserInScope d)
    (pre post : List Ast2.Chunk) (l : Nat) (args : List (Str × Ast2.Scope)) (content : List Ast2.Chunk) (pb : Str)
    (hb : e = pre ++ .mk l (.environment (.mk chars!"document" args content pb pb)) :: post)
    (hpre : ∀ c ∈ pre, isBody c = false) (hpost : ∀ c ∈ post, isBody c = false)
    (hk : KeepsText pre ∧ (∀ x ∈ args, KeepsText x.2.chunks) ∧ KeepsText content ∧ KeepsText post) :
    fromStr f.display = .ok f := by
  obtain ⟨d', e', g1, g2, g3, g4⟩ := fromStr_ok hf
  rw [he] at g3
  cases g3
  have hc := (Ast2.C71 e).1 (Ast2.C71_parsed s d e hd he h1 h2)
  subst hb
  exact C72_partial pre post l args content pb f g4 hpre hpost hc hk

/-- The hypotheses of `C72_parsed_partial` are met by a document with a preamble, a formula and text after the body. -/
theorem C72_example : ∃ f, fromStr chars!"\\documentclass{a}\n\\begin{document}\nx $y^2$\n\\end{document}\nz" = .ok f ∧
    fromStr f.display = .ok f := by
  have h3 : ∃ f, fromStr chars!"\\documentclass{a}\n\\begin{document}\nx $y^2$\n\\end{document}\nz" = .ok f := by
    have : (fromStr chars!"\\documentclass{a}\n\\begin{document}\nx $y^2$\n\\end{document}\nz").isOk = true := by decide +kernel
    revert this
    cases fromStr chars!"\\documentclass{a}\n\\begin{document}\nx $y^2$\n\\end{document}\nz" with
    | error => intro h; cases h
    | ok f => exact fun _ => ⟨f, rfl⟩
  obtain ⟨f, hf⟩ := h3
  refine ⟨f, hf, ?_⟩
  have hd : Ast1.fromStr chars!"\\documentclass{a}\n\\begin{document}\nx $y^2$\n\\end{document}\nz" = .ok
    [.mk 1 (.command (.mk chars!"documentclass" [([], .mk [.mk 1 (.text chars!"a")] .curly)])), .mk 1 (.text chars!"\n"),
     .mk 2 (.command (.mk chars!"begin" [([], .mk [.mk 1 (.text chars!"document")] .curly)])), .mk 2 (.text chars!"\nx $y^2$\n"),
     .mk 4 (.command (.mk chars!"end" [([], .mk [.mk 1 (.text chars!"document")] .curly)])), .mk 4 (.text chars!"\nz")] := by
    decide +kernel
  have he : Ast2.fromStr chars!"\\documentclass{a}\n\\begin{document}\nx $y^2$\n\\end{document}\nz" = .ok
    ([.mk 1 (.command (.mk chars!"documentclass" [([], .mk [.mk 1 (.text chars!"a")] .curly)])), .mk 1 (.text chars!"\n")] ++
     .mk 2 (.environment (.mk chars!"document" [] [.mk 1 (.text chars!"\nx $y^2$\n")] [] [])) :: [.mk 4 (.text chars!"\nz")]) := by
    decide +kernel
  have hcan := (Ast1.C14_exact_partial _ _ hd).1 (by decide +kernel)
  refine C72_parsed_partial _ _ _ f hd he hf hcan.1 hcan.2 _ _ _ _ _ _ rfl ?_ ?_ ⟨?_, ?_, ?_, ?_⟩
  · intro c hc
    simp only [List.mem_cons, List.not_mem_nil, or_false] at hc
    rcases hc with rfl | rfl <;> rfl
  · intro c hc
    simp only [List.mem_cons, List.not_mem_nil, or_false] at hc
    subst hc; rfl
  · refine .command (by decide) ?_ (.text (by decide) .nil)
    intro x hx
    simp only [List.mem_cons, List.not_mem_nil, or_false] at hx
    subst hx
    exact .text (by decide) .nil
  · intro x hx; cases hx
  · refine .inline (q := chars!"\nx ") (r := chars!"y^2$\n") (kept := []) (p := ⟨2, chars!"y^2", chars!"\n", []⟩)
      (by decide) (.here (q := []) (x := chars!"y^2") (by decide)) (.inr (by decide)) ?_ ?_
    · exact .text (by decide) .nil
    · exact .text (by decide) .nil
  · exact .text (by decide) .nil

/-- Without the conditions C72 is false: `\foo{[b]}` is printed as `\foo{{b}}`, which is read as `\foo{b}`. -/
theorem C72_false : ∃ s f f', fromStr s = .ok f ∧ fromStr f.display = .ok f' ∧ f' ≠ f :=
  ⟨chars!"\\begin{document}\\foo{[b]}\\end{document}",
    { Document.default with body := [.mk 1 (.command (.mk chars!"foo" [([], .mk [.mk 1 (.scope (.mk [.mk 1 (.text chars!"b")] .curly))] .curly)]))] },
    { Document.default with body := [.mk 1 (.command (.mk chars!"foo" [([], .mk [.mk 1 (.text chars!"b")] .curly)]))] },
    by decide +kernel, by decide +kernel, by decide +kernel⟩

end LatexAst.Ast3
