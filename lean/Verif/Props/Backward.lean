import Verif.Proofs.Backward
import Verif.Props.Forward
import Verif.Props.Again4

/-!
# C118: going back to stage 2 moves no text; going there and back
-/

namespace LatexAst.Ast3
open Spec

/-- Going back to stage 2 keeps everything where it is, whatever chunks are converted. -/
theorem C118_back (cs : List Chunk) (ds : List Ast2.Chunk) (h : intoChunks cs = .ok ds) : Ast2.words ds = words cs :=
  ((C61_chunks cs ds).1 h).words

/-- So for a document, whatever it contains. -/
theorem C118_back_document (f : Document) (e : Ast2.Document) (h : toAst2 f = .ok e) : Ast2.words e = f.words :=
  ((C61 f e).1 h).words

/-- Going from stage 3 to stage 2 and back moves texts forward only. -/
theorem C118_there_and_back (cs : List Chunk) (ds : List Ast2.Chunk) (out : List Chunk) (h : intoChunks cs = .ok ds)
    (h' : mathsFromChunks ds = .ok out) : Forward (words cs) (words out) := by
  rw [← C118_back cs ds h]
  exact maths_forward h'

/-- Likewise going from stage 2 to stage 3 and back. -/
theorem C118_forth_and_back (ds : List Ast2.Chunk) (cs : List Chunk) (es : List Ast2.Chunk) (h : mathsFromChunks ds = .ok cs)
    (h' : intoChunks cs = .ok es) : Forward (Ast2.words ds) (Ast2.words es) := by
  rw [C118_back cs es h']
  exact maths_forward h

/-- Any document with one document environment, read or not. -/
theorem C118_one_body (e : Ast2.Document) (f : Document) (h : tryFrom e = .ok f) (pre post : List Ast2.Chunk) (c : Ast2.Chunk)
    (he : e = pre ++ c :: post) (hc : isBody c = true) (hpre : ∀ c ∈ pre, isBody c = false) (hpost : ∀ c ∈ post, isBody c = false) :
    Forward (Ast2.words e) f.words := by
  have e1 : preambleOf e = pre := by
    rw [he, preambleOf, List.takeWhile_append_of_pos (by simpa using hpre)]
    simp [hc]
  have e2 : trailingOf e = post := by
    rw [he, trailingOf, List.dropWhile_append_of_pos (by simpa using hpre), List.dropWhile_cons_of_neg (by simp [hc]),
      List.filter_cons_of_neg (by simp [hc])]
    exact List.filter_eq_self.2 (by simpa using hpost)
  have e3 : bodiesOf e = [c] := by
    rw [he, bodiesOf, List.filter_append, List.filter_cons_of_pos hc, List.filter_eq_nil_iff.2 (by simpa using hpre), List.filter_eq_nil_iff.2 (by simpa using hpost)]
    rfl
  cases (C57 _ _).1 h with
  | @document fpre fpost fargs fcontent fpb fpe fopts _ _ hpr htr hbd _ =>
    rw [e1] at hpr
    rw [e2] at htr
    cases hbd with
    | none hn => rw [e3] at hn; cases hn
    | @last x c' l env hl hcc =>
      have hx : c' = c := by
        rw [e3] at hl
        have := congrArg List.getLast? hl
        simpa using this.symm
      subst hx
      have k1 := maths_forward (becomes_iff.1 hpr)
      have k2 := maths_forward (becomes_iff.1 htr)
      have k3 := maths_forward (becomes_iff.1 hcc)
      obtain ⟨l, args, content, pb, pe, rfl⟩ := isBody_iff.1 hc
      obtain ⟨args', cs, g1, g2, g3⟩ := maths_environment_ok (becomes_iff.1 hcc)
      cases g3
      have k3' : Forward (Ast2.words [.mk l (.environment (.mk chars!"document" args content fpb fpe))])
          [.environment chars!"document" (argWords fargs) (words (paragraphs cs)) fpb fpe] := by
        simpa [words, ChunkVariant.words, Environment.words] using k3
      rw [he, Ast2.words_append]
      have k4 := k1.append (k3'.append k2)
      simpa [Ast2.words, Document.words] using k4

/-- Hence a document that goes from stage 3 to stage 2 and back, if it has no second document environment. -/
theorem C118_document_there_and_back (f g : Document) (e : Ast2.Document) (h : toAst2 f = .ok e) (h' : tryFrom e = .ok g)
    (pre post : List Ast2.Chunk) (c : Ast2.Chunk) (he : e = pre ++ c :: post) (hc : isBody c = true)
    (hpre : ∀ c ∈ pre, isBody c = false) (hpost : ∀ c ∈ post, isBody c = false) : Forward f.words g.words := by
  rw [← C118_back_document f e h]
  exact C118_one_body e g h' pre post c he hc hpre hpost

/-- Concrete documents that meet the hypotheses: a stage-2 document with one document environment, what it becomes at stage 3, and
what that becomes going to stage 2 and back. -/
theorem C118_case : ∃ pre c post, sample116 = pre ++ c :: post ∧ isBody c = true ∧ (∀ c ∈ pre, isBody c = false) ∧
    (∀ c ∈ post, isBody c = false) ∧ tryFrom sample116 = .ok sample116_3 ∧ (∃ d e', toAst2 sample116_3 = .ok d ∧ tryFrom d = .ok e') ∧
    Forward (Ast2.words sample116) sample116_3.words := by
  obtain ⟨h0, _, d, e', h1, h2, _⟩ := C116_case
  have key : ∃ pre c post, sample116 = pre ++ c :: post ∧ isBody c = true ∧ (∀ c ∈ pre, isBody c = false) ∧ (∀ c ∈ post, isBody c = false) := by
    refine ⟨preambleOf sample116, _, trailingOf sample116, rfl, by decide, by decide, by decide⟩
  obtain ⟨pre, c, post, k1, k2, k3, k4⟩ := key
  exact ⟨pre, c, post, k1, k2, k3, k4, h0, ⟨d, e', h1, h2⟩, C118_one_body _ _ h0 pre post c k1 k2 k3 k4⟩

end LatexAst.Ast3
