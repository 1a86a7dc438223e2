import Verif.Proofs.FirstFault
import Verif.Props.Sections

/-!
# Validation reports the first fault (C96)
-/

namespace LatexAst.Ast1
open Spec

/-- C96: `validate` reports the first fault. It looks at the top-level chunks in order; a wrong line number is reported
before what is inside the chunk, and inside a chunk the fault of the first faulty node in reading order is reported. -/
theorem C96 (d : Document) (e : InternalError) : Document.validate d = .error e ↔
    ∃ pre c post, d = pre ++ c :: post ∧ Valid pre ∧
      ((c.lineNo ≠ 1 + (displayChunks pre).count '\n' ∧
          e = .incorrectChunkLineNumber (1 + (displayChunks pre).count '\n') c.lineNo) ∨
       (c.lineNo = 1 + (displayChunks pre).count '\n' ∧ FirstFault [c] e)) :=
  validateFrom_error 1 d e

/-- C96, checked constructors: they fail with the first fault of what they would build. -/
theorem C96_new (n : Nat) (v : ChunkVariant) (label : Str) (args : List (Str × Scope)) (chunks : List Chunk) (sv : ScopeVariant) (e : InternalError) :
    (Chunk.new n v = .error e ↔ FirstFault [.mk n v] e) ∧
    (Command.new label args = .error e ↔ FirstFault [.mk 1 (.command (.mk label args))] e) ∧
    (Scope.new chunks sv = .error e ↔ FirstFault chunks e) ∧
    (Document.new chunks = .error e ↔ Document.validate chunks = .error e) := by
  have h1 : ∀ (c : Chunk), c.validate = .error e ↔ FirstFault [c] e := fun c => Chunk.validate_error c e
  have h2 : ∀ (cs : List Chunk), validateChunks cs = .error e ↔ FirstFault cs e := fun cs => validateChunks_error cs e
  simp only [← h1, ← h2, Chunk.new, Command.new, Scope.new, Document.new, Chunk.validate,
    ChunkVariant.validate, Scope.validate]
  refine ⟨?_, ?_, ?_, ?_⟩ <;> split <;> simp_all

/-- C96, pushing: `push` fails exactly with the first fault of the new node, `push_chunk` too, and if the chunk has none
with a wrong line number. The expected number is the line on which the last chunk ends, or 1. -/
theorem C96_push (d : Document) (v : ChunkVariant) (n : Nat) (e : InternalError) :
    ((Document.push d v).1 = .error e ↔ FirstFault [.mk n v] e) ∧
    ((Document.pushChunk d (.mk n v)).1 = .error e ↔ FirstFault [.mk n v] e ∨
      ((∀ e', ¬ FirstFault [.mk n v] e') ∧ ∃ m, m ≠ n ∧ e = .incorrectChunkLineNumber m n ∧
        (d = [] → m = 1) ∧ ∀ init last, d = init ++ [last] → m = last.lineNo + last.display.count '\n')) := by
  have h1 : ∀ e', FirstFault [.mk n v] e' ↔ v.validate = .error e' := fun e' => (Chunk.validate_error (.mk n v) e').symm
  have hl : ∀ m, m = Document.nextLine d ↔ ((d = [] → m = 1) ∧ ∀ init last, d = init ++ [last] → m = last.lineNo + last.display.count '\n') := by
    intro m
    rcases List.eq_nil_or_concat d with rfl | ⟨init, last, rfl⟩
    · simp [Document.nextLine]
    · have hlast : last.lines = 1 + last.display.count '\n' := by
        rw [Chunk.lines_eq, newlines_eq_count]; omega
      simp only [Document.nextLine, List.concat_eq_append, List.getLast?_concat, hlast]
      constructor
      · rintro rfl
        refine ⟨by simp, fun i l h => ?_⟩
        obtain ⟨_, h⟩ := List.append_inj' h rfl
        simp at h; subst h; omega
      · rintro ⟨_, h⟩
        have := h init last rfl
        omega
  constructor
  · rw [h1]
    simp only [Document.push]
    rcases v.validate with e' | u <;> simp
  · simp only [h1, ← hl]
    simp only [Document.pushChunk, Chunk.validate, Chunk.lineNo]
    rcases v.validate with e' | u
    · simp
    · by_cases hn : Document.nextLine d = n
      · simp [hn]
      · simp [hn]; exact eq_comm

/-- `nodeList` lists exactly the nodes of a document. -/
theorem C96_nodes (d : List Chunk) (v : ChunkVariant) : v ∈ nodeList d ↔ Within d v := nodeList_within d v

/-- A document with three faults: the first is reported, and without it the second, and without that the third. -/
theorem C96_example :
    Document.validate [.mk 1 (.text chars!"a\n"), .mk 2 (.scope (.mk [.mk 7 (.command (.mk chars!"a}" [])), .mk 9 (.text chars!")")] .curly)),
      .mk 5 (.text chars!"{")] = .error (.unsanitisedCharInString '}') ∧
    Document.validate [.mk 1 (.text chars!"a\n"), .mk 2 (.scope (.mk [.mk 7 (.command (.mk chars!"a" [])), .mk 9 (.text chars!")")] .curly)),
      .mk 5 (.text chars!"{")] = .error (.unsanitisedCharInString ')') ∧
    Document.validate [.mk 1 (.text chars!"a\n"), .mk 2 (.scope (.mk [.mk 7 (.command (.mk chars!"a" [])), .mk 9 (.text [])] .curly)),
      .mk 5 (.text chars!"{")] = .error (.incorrectChunkLineNumber 2 5) ∧
    Document.validate [.mk 1 (.text chars!"a\n"), .mk 2 (.scope (.mk [.mk 7 (.command (.mk chars!"a" [])), .mk 9 (.text [])] .curly)),
      .mk 2 (.text chars!"{")] = .error (.unsanitisedCharInString '{') := by
  decide +kernel

end LatexAst.Ast1

namespace LatexAst.Ast2
open Spec

/-- C96: `validate` reports the first fault. It looks at the top-level chunks in order; a wrong line number is reported
before what is inside the chunk, and inside a chunk the fault of the first faulty node in reading order is reported. -/
theorem C96 (d : Document) (e : InternalError) : Document.validate d = .error e ↔
    ∃ pre c post, d = pre ++ c :: post ∧ Valid pre ∧
      ((c.lineNo ≠ 1 + (displayChunks pre).count '\n' ∧
          e = .incorrectChunkLineNumber (1 + (displayChunks pre).count '\n') c.lineNo) ∨
       (c.lineNo = 1 + (displayChunks pre).count '\n' ∧ FirstFault [c] e)) :=
  validateFrom_error 1 d e

/-- C96, checked constructors: they fail with the first fault of what they would build. -/
theorem C96_new (n : Nat) (v : ChunkVariant) (label : Str) (args : List (Str × Scope)) (chunks : List Chunk) (sv : ScopeVariant)
    (pb pe : Str) (e : InternalError) :
    (Chunk.new n v = .error e ↔ FirstFault [.mk n v] e) ∧
    (Command.new label args = .error e ↔ FirstFault [.mk 1 (.command (.mk label args))] e) ∧
    (Scope.new chunks sv = .error e ↔ FirstFault chunks e) ∧
    (Environment.new label args chunks pb pe = .error e ↔ FirstFault [.mk 1 (.environment (.mk label args chunks pb pe))] e) ∧
    (Document.new chunks = .error e ↔ Document.validate chunks = .error e) := by
  have h1 : ∀ (c : Chunk), c.validate = .error e ↔ FirstFault [c] e := fun c => Chunk.validate_error c e
  have h2 : ∀ (cs : List Chunk), validateChunks cs = .error e ↔ FirstFault cs e := fun cs => validateChunks_error cs e
  simp only [← h1, ← h2, Chunk.new, Command.new, Scope.new, Environment.new, Document.new, Chunk.validate,
    ChunkVariant.validate, Scope.validate]
  refine ⟨?_, ?_, ?_, ?_, ?_⟩ <;> split <;> simp_all

/-- C96, pushing: `push` fails exactly with the first fault of the new node, `push_chunk` too, and if the chunk has none
with a wrong line number. The expected number is the line on which the last chunk ends, or 1. -/
theorem C96_push (d : Document) (v : ChunkVariant) (n : Nat) (e : InternalError) :
    ((Document.push d v).1 = .error e ↔ FirstFault [.mk n v] e) ∧
    ((Document.pushChunk d (.mk n v)).1 = .error e ↔ FirstFault [.mk n v] e ∨
      ((∀ e', ¬ FirstFault [.mk n v] e') ∧ ∃ m, m ≠ n ∧ e = .incorrectChunkLineNumber m n ∧
        (d = [] → m = 1) ∧ ∀ init last, d = init ++ [last] → m = last.lineNo + last.display.count '\n')) := by
  have h1 : ∀ e', FirstFault [.mk n v] e' ↔ v.validate = .error e' := fun e' => (Chunk.validate_error (.mk n v) e').symm
  have hl : ∀ m, m = Document.nextLine d ↔ ((d = [] → m = 1) ∧ ∀ init last, d = init ++ [last] → m = last.lineNo + last.display.count '\n') := by
    intro m
    rcases List.eq_nil_or_concat d with rfl | ⟨init, last, rfl⟩
    · simp [Document.nextLine]
    · have hlast : last.lines = 1 + last.display.count '\n' := by
        rw [Chunk.lines_eq, newlines_eq_count]; omega
      simp only [Document.nextLine, List.concat_eq_append, List.getLast?_concat, hlast]
      constructor
      · rintro rfl
        refine ⟨by simp, fun i l h => ?_⟩
        obtain ⟨_, h⟩ := List.append_inj' h rfl
        simp at h; subst h; omega
      · rintro ⟨_, h⟩
        have := h init last rfl
        omega
  constructor
  · rw [h1]
    simp only [Document.push]
    rcases v.validate with e' | u <;> simp
  · simp only [h1, ← hl]
    simp only [Document.pushChunk, Chunk.validate, Chunk.lineNo]
    rcases v.validate with e' | u
    · simp
    · by_cases hn : Document.nextLine d = n
      · simp [hn]
      · simp [hn]; exact eq_comm

/-- `nodeList` lists exactly the nodes of a document. -/
theorem C96_nodes (d : List Chunk) (v : ChunkVariant) : v ∈ nodeList d ↔ Within d v := nodeList_within d v

/-- The arguments of an environment come before its content, its label before both. -/
theorem C96_example :
    Document.validate [.mk 1 (.environment (.mk chars!"a{" [([], .mk [.mk 1 (.command (.mk chars!"end" []))] .curly)]
      [.mk 1 (.command (.mk chars!"begin" []))] [] []))] = .error (.unsanitisedCharInString '{') ∧
    Document.validate [.mk 1 (.environment (.mk chars!"a" [([], .mk [.mk 1 (.command (.mk chars!"end" []))] .curly)]
      [.mk 1 (.command (.mk chars!"begin" []))] [] []))] = .error .endCommand ∧
    Document.validate [.mk 1 (.environment (.mk chars!"a" [([], .mk [.mk 1 (.command (.mk chars!"x" []))] .curly)]
      [.mk 1 (.command (.mk chars!"begin" []))] [] []))] = .error .beginCommand ∧
    (Document.pushChunk [.mk 4 (.text chars!"a\nb")] (.mk 4 (.text chars!"x"))).1 = .error (.incorrectChunkLineNumber 5 4) := by
  decide +kernel

end LatexAst.Ast2

namespace LatexAst.Ast3
open Spec

/-- C96: `validate` reports the first fault: of the preamable, or if that is valid of the body, or if that is valid too of
the trailing section. In a section it looks at the chunks in order; a wrong line number is reported before what is inside
the chunk, and inside a chunk the fault of the first faulty node in reading order is reported. -/
theorem C96 (d : Document) (e : InternalError) : d.validate = .error e ↔
    FirstSectionFault d.preamable e ∨ (ValidSection d.preamable ∧ FirstSectionFault d.body e) ∨
    (ValidSection d.preamable ∧ ValidSection d.body ∧ FirstSectionFault d.trailing e) := by
  have hs : ∀ l, ValidSection l ↔ validateFrom 1 l = .ok () := fun l => by
    rw [validateFrom_iff 1 l, allChunks_iff]; rfl
  have he : ∀ l, FirstSectionFault l e ↔ validateFrom 1 l = .error e := fun l => (validateFrom_error 1 l e).symm
  simp only [hs, he, Document.validate]
  rcases validateFrom 1 d.preamable with e1 | u
  · simp
  · rcases validateFrom 1 d.body with e2 | u <;> simp

/-- C96, checked constructors: they fail with the first fault of what they would build. -/
theorem C96_new (n : Nat) (v : ChunkVariant) (label : Str) (args : List (Str × Scope)) (chunks : List Chunk) (sv : ScopeVariant)
    (pb pe : Str) (mv : MathsVariant) (mt : MathsType)
    (doc : Document) (e : InternalError) :
    (Chunk.new n v = .error e ↔ FirstFault [.mk n v] e) ∧
    (Command.new label args = .error e ↔ FirstFault [.mk 1 (.command (.mk label args))] e) ∧
    (Scope.new chunks sv = .error e ↔ FirstFault chunks e) ∧
    (Environment.new label args chunks pb pe = .error e ↔ FirstFault [.mk 1 (.environment (.mk label args chunks pb pe))] e) ∧
    (MathsBlock.new mv mt chunks = .error e ↔ FirstFault chunks e) ∧
    (Document.new doc = .error e ↔ doc.validate = .error e) := by
  have h1 : ∀ (c : Chunk), c.validate = .error e ↔ FirstFault [c] e := fun c => Chunk.validate_error c e
  have h2 : ∀ (cs : List Chunk), validateChunks cs = .error e ↔ FirstFault cs e := fun cs => validateChunks_error cs e
  simp only [← h1, ← h2, Chunk.new, Command.new, Scope.new, Environment.new, MathsBlock.new, MathsBlock.validate, Document.new, Chunk.validate,
    ChunkVariant.validate, Scope.validate]
  refine ⟨?_, ?_, ?_, ?_, ?_, ?_⟩ <;> split <;> simp_all

/-- C96, pushing: `push` fails exactly with the first fault of the new node, `push_chunk` too, and if the chunk has none
with a wrong line number. The expected number is the line on which the last chunk ends, or 1. -/
theorem C96_push (d : List Chunk) (v : ChunkVariant) (n : Nat) (e : InternalError) :
    ((pushVec d v).1 = .error e ↔ FirstFault [.mk n v] e) ∧
    ((pushChunkVec d (.mk n v)).1 = .error e ↔ FirstFault [.mk n v] e ∨
      ((∀ e', ¬ FirstFault [.mk n v] e') ∧ ∃ m, m ≠ n ∧ e = .incorrectChunkLineNumber m n ∧
        (d = [] → m = 1) ∧ ∀ init last, d = init ++ [last] → m = last.lineNo + last.display.count '\n')) := by
  have h1 : ∀ e', FirstFault [.mk n v] e' ↔ v.validate = .error e' := fun e' => (Chunk.validate_error (.mk n v) e').symm
  have hl : ∀ m, m = nextLine d ↔ ((d = [] → m = 1) ∧ ∀ init last, d = init ++ [last] → m = last.lineNo + last.display.count '\n') := by
    intro m
    rcases List.eq_nil_or_concat d with rfl | ⟨init, last, rfl⟩
    · simp [nextLine]
    · have hlast : last.lines = 1 + last.display.count '\n' := by
        rw [Chunk.lines_eq, newlines_eq_count]; omega
      simp only [nextLine, List.concat_eq_append, List.getLast?_concat, hlast]
      constructor
      · rintro rfl
        refine ⟨by simp, fun i l h => ?_⟩
        obtain ⟨_, h⟩ := List.append_inj' h rfl
        simp at h; subst h; omega
      · rintro ⟨_, h⟩
        have := h init last rfl
        omega
  constructor
  · rw [h1]
    simp only [pushVec]
    rcases v.validate with e' | u <;> simp
  · simp only [h1, ← hl]
    simp only [pushChunkVec, Chunk.validate, Chunk.lineNo]
    rcases v.validate with e' | u
    · simp
    · by_cases hn : nextLine d = n
      · simp [hn]
      · simp [hn]; exact eq_comm

/-- `nodeList` lists exactly the nodes of a document. -/
theorem C96_nodes (d : List Chunk) (v : ChunkVariant) : v ∈ nodeList d ↔ Within d v := nodeList_within d v

/-- In a text the special character or the paragraph gap that comes first is reported; of the sections, the preamable. -/
theorem C96_example :
    Document.validate { Document.default with body := [.mk 1 (.text chars!"a \n \n(")] } = .error .unbrokenParagraph ∧
    Document.validate { Document.default with body := [.mk 1 (.text chars!"a( \n \n")] } = .error (.unsanitisedCharInString '(') ∧
    Document.validate { Document.default with body := [.mk 1 (.text chars!"a(")], preamable := [.mk 1 (.paragraphBreak chars!"\n")], trailing := [.mk 2 (.text [])] } = .error .paragraphBreakTooShort ∧
    Document.validate { Document.default with body := [.mk 1 (.paragraphBreak chars!"\nx")], trailing := [.mk 2 (.text [])] } =
      .error .paragraphBreakNonwhitespace ∧
    Document.validate { Document.default with trailing := [.mk 2 (.text [])] } = .error (.incorrectChunkLineNumber 1 2) ∧
    (MathsBlock.new .dollars .inline [.mk 1 (.mathsBlock (.mk .dollars .inline [.mk 1 (.text chars!"x}")]))]).isOk = false := by
  decide +kernel

end LatexAst.Ast3
