import Verif.Proofs.Push
import Verif.Model.Eq1
import Verif.Model.Eq2
import Verif.Model.Eq3

/-!
# C15, C16, C17, C18, C20, C43, C48: building, validating, counting lines
-/

namespace LatexAst

/-! ### Stage 1 -/

namespace Ast1

/-- C15 (stage 1, push): it succeeds iff the variant validates; on success the printed document grows by
exactly the printed variant; on failure the document is unchanged and the error is the variant's. -/
theorem C15_push (d : Document) (v : ChunkVariant) :
    (∀ d', Document.push d v = (.ok (), d') →
      v.validate = .ok () ∧ displayChunks d' = displayChunks d ++ v.display) ∧
    (∀ e d', Document.push d v = (.error e, d') → v.validate = .error e ∧ d' = d) := by
  constructor
  · intro d' h
    simp only [Document.push] at h
    split at h
    · simp at h
    · next hv =>
      refine ⟨hv, ?_⟩
      simp only [Prod.mk.injEq, true_and] at h
      rw [← h, Document.pushUnchecked, Document.pushChunkUnchecked_display]; rfl
  · intro e d' h
    simp only [Document.push] at h
    split at h
    · next e' hv =>
      simp only [Prod.mk.injEq, Except.error.injEq] at h
      rw [← h.1, ← h.2]; exact ⟨hv, rfl⟩
    · simp at h

/-- C15 (stage 1, push_chunk): the same for a chunk, whose line number must also be right. -/
theorem C15_pushChunk (d : Document) (c : Chunk) :
    (∀ d', Document.pushChunk d c = (.ok (), d') →
      c.validate = .ok () ∧ displayChunks d' = displayChunks d ++ c.display) ∧
    (∀ e d', Document.pushChunk d c = (.error e, d') → d' = d ∧
      (c.validate = .error e ∨
        (c.validate = .ok () ∧ ∃ n, n ≠ c.lineNo ∧ e = .incorrectChunkLineNumber n c.lineNo))) := by
  constructor
  · intro d' h
    simp only [Document.pushChunk] at h
    split at h
    · simp at h
    · next hv =>
      split at h
      · simp at h
      · refine ⟨hv, ?_⟩
        simp only [Prod.mk.injEq, true_and] at h
        rw [← h, Document.pushChunkUnchecked_display]
  · intro e d' h
    simp only [Document.pushChunk] at h
    split at h
    · next e' hv =>
      simp only [Prod.mk.injEq, Except.error.injEq] at h
      rw [← h.1, ← h.2]; exact ⟨rfl, .inl hv⟩
    · next hv =>
      split at h
      · next hl =>
        simp only [Prod.mk.injEq, Except.error.injEq] at h
        rw [← h.1, ← h.2]
        exact ⟨rfl, .inr ⟨hv, _, hl, rfl⟩⟩
      · simp at h

/-- C15 (stage 1, structure): a push leaves all previous chunks as they are and adds one chunk,
except that a text pushed after a text is joined to it, keeping that text's line number. -/
theorem C15_structure (d : Document) (l : Nat) (v : ChunkVariant) :
    (∃ init l' a s, d = init ++ [.mk l' (.text a)] ∧ v = .text s ∧
      Document.pushChunkUnchecked d (.mk l v) = init ++ [.mk l' (.text (a ++ s))]) ∨
    ((∀ l' a s, d.getLast? = some (.mk l' (.text a)) → v ≠ .text s) ∧
      Document.pushChunkUnchecked d (.mk l v) = d ++ [.mk l v]) := by
  simp only [Document.pushChunkUnchecked, Chunk.variant]
  split
  · next s =>
    split
    · next l' a hl => exact .inl ⟨d.dropLast, l', a, s, eq_dropLast_append hl, rfl, rfl⟩
    · next hl => exact .inr ⟨fun l' a s h => absurd h (hl l' a), rfl⟩
  · next hv => exact .inr ⟨fun _ _ s _ => hv s, rfl⟩

/-- One call of the checked building API. -/
inductive Op where
  | push (v : ChunkVariant)
  | pushChunk (c : Chunk)

/-- The document after one call (whatever the call returned). -/
def Op.apply (d : Document) : Op → Document
  | .push v => (Document.push d v).2
  | .pushChunk c => (Document.pushChunk d c).2

/-- C16 (stage 1): every history of checked calls from the empty document leads to a valid document. -/
theorem C16 (history : List Op) : Document.validate (history.foldl Op.apply []) = .ok () := by
  rw [validate_iff]
  suffices h : ∀ d, Valid d → Valid (history.foldl Op.apply d) by
    refine h [] ⟨numberedFrom_nil 1, fun v hv => ?_⟩
    cases hv <;> simp_all
  induction history with
  | nil => exact fun d h => h
  | cons op ops ih =>
    intro d h
    refine ih _ ?_
    cases op with
    | push v => exact Document.push_valid v h
    | pushChunk c => exact Document.pushChunk_valid c h

/-- Non-vacuity of C16: a history with accepted, merged and refused calls. -/
example : ([Op.push (.text chars!"a\n"), .push (.text chars!"b"), .push (.text chars!"%"),
      .pushChunk (.mk 2 (.command (.mk chars!"x" []))), .pushChunk (.mk 7 (.text chars!"y"))]).foldl
      Op.apply [] = [.mk 1 (.text chars!"a\nb"), .mk 2 (.command (.mk chars!"x" []))] := by
  decide +kernel

/-- C17 (stage 1), decision: `push_chunk` succeeds iff the chunk validates and its line is the line on which
the last chunk ends (1 for the empty document); otherwise it reports the first of the two problems. -/
theorem C17_decision (d : Document) (c : Chunk) :
    (Document.pushChunk d c).1 =
      (match c.validate with
       | .error e => .error e
       | .ok () =>
         let expected := match d.getLast? with
           | none => 1
           | some last => last.lineNo + last.display.count '\n'
         if c.lineNo = expected then .ok () else .error (.incorrectChunkLineNumber expected c.lineNo)) := by
  have hn : Document.nextLine d = (match d.getLast? with
           | none => 1
           | some last => last.lineNo + last.display.count '\n') := by
    simp only [Document.nextLine]
    cases d.getLast? with
    | none => rfl
    | some last => simp only [Chunk.lines_eq, newlines_eq_count]; omega
  simp only [Document.pushChunk, ← hn]
  rcases hv : c.validate with e | u
  · rfl
  · by_cases h : c.lineNo = Document.nextLine d
    · simp [h]
    · have : ¬ Document.nextLine d = c.lineNo := fun h' => h h'.symm
      simp [h, this]

/-- C17 (stage 1), valid documents: the expected line is the document's number of lines. -/
theorem C17_valid (d : Document) (c : Chunk) (hd : Document.validate d = .ok ()) :
    (Document.pushChunk d c).1 = .ok () ↔ c.validate = .ok () ∧ c.lineNo = Document.lines d := by
  have hv := ((validate_iff d).1 hd).1
  have hn := Document.nextLine_of_numbered hv
  have hl : Document.lines d = 1 + newlines (displayChunks d) := by
    simp [Document.lines, linesSum_eq, Nat.add_comm]
  simp only [Document.pushChunk]
  split
  · next e h => simp [h]
  · next h =>
    rw [h, hl, ← hn]
    by_cases h : c.lineNo = Document.nextLine d
    · simp [h]
    · have : ¬ Document.nextLine d = c.lineNo := fun h' => h h'.symm
      simp [h, this]

/-- Non-vacuity of C17_valid. -/
example : Document.validate [.mk 1 (.text chars!"a\nb"), .mk 2 (.command (.mk chars!"x" []))] = .ok () ∧
    (Document.pushChunk [.mk 1 (.text chars!"a\nb"), .mk 2 (.command (.mk chars!"x" []))]
      (.mk 2 (.text chars!"\nc"))).1 = .ok () := by decide +kernel

/-- C18 (stage 1): `validate` accepts exactly the valid documents. -/
theorem C18 (d : Document) : Document.validate d = .ok () ↔ Valid d := validate_iff d

/-- C18 (stage 1): `Document::new` accepts exactly the valid chunk vectors and keeps them. -/
theorem C18_new (cs : List Chunk) (d : Document) : Document.new cs = .ok d ↔ Valid cs ∧ d = cs := by
  rw [← validate_iff, Document.new]
  rcases Document.validate cs with e | u
  · simp
  · simp [eq_comm]

/-- C18 (stage 1): the checked constructors accept exactly the values all of whose nodes respect the rule. -/
theorem C18_constructors :
    (∀ n v c, Chunk.new n v = .ok c ↔ (∀ w, Within [.mk n v] w → NodeOk w) ∧ c = .mk n v) ∧
    (∀ l a c, Command.new l a = .ok c ↔
      (∀ w, Within [.mk 1 (.command (.mk l a))] w → NodeOk w) ∧ c = .mk l a) ∧
    (∀ cs sv s, Scope.new cs sv = .ok s ↔ (∀ w, Within cs w → NodeOk w) ∧ s = .mk cs sv) := by
  refine ⟨fun n v c => ?_, fun l a c => ?_, fun cs sv s => ?_⟩
  · rw [← allChunks_iff, Chunk.new]
    simp only [AllChunks, and_true, Chunk.All, ← ChunkVariant.validate_iff]
    rcases v.validate with e | u <;> simp [eq_comm]
  · rw [← allChunks_iff, Command.new]
    simp only [AllChunks, and_true, Chunk.All, ChunkVariant.All, ← Command.validate_iff]
    rcases (Command.mk l a).validate with e | u <;> simp [eq_comm]
  · rw [← allChunks_iff, Scope.new]
    simp only [← validateChunks_iff, Scope.validate]
    rcases validateChunks cs with e | u <;> simp [eq_comm]

/-- Non-vacuity of C18: a nested valid document, and an invalid one. -/
example : Document.validate [.mk 1 (.text chars!"a\n"), .mk 2 (.scope (.mk [.mk 7 (.command (.mk chars!"%" []))]
    .curly))] = .ok () ∧ Document.validate [.mk 1 (.text chars!"a\n"),
    .mk 2 (.scope (.mk [.mk 1 (.text chars!"%")] .curly))] ≠ .ok () := by decide +kernel

/-- C20 (stage 1): `lines()` of every node is one more than the number of newlines it prints. -/
theorem C20_nodes :
    (∀ c : Chunk, c.lines = c.display.count '\n' + 1) ∧
    (∀ v : ChunkVariant, v.lines = v.display.count '\n' + 1) ∧
    (∀ c : Command, c.lines = c.display.count '\n' + 1) ∧
    (∀ s : Scope, s.lines = s.display.count '\n' + 1) := by
  simp only [← newlines_eq_count]
  exact ⟨Chunk.lines_eq, ChunkVariant.lines_eq, Command.lines_eq, Scope.lines_eq⟩

/-- C20 (stage 1), documents. -/
theorem C20_document (d : Document) : Document.lines d = (displayChunks d).count '\n' + 1 := by
  rw [Document.lines, linesSum_eq, newlines_eq_count]

/-- C48 (stage 1): unchecked pushes append what is pushed. -/
theorem C48 (d : Document) (v : ChunkVariant) (c : Chunk) :
    displayChunks (Document.pushUnchecked d v) = displayChunks d ++ v.display ∧
    displayChunks (Document.pushChunkUnchecked d c) = displayChunks d ++ c.display :=
  ⟨by rw [Document.pushUnchecked, Document.pushChunkUnchecked_display]; rfl,
   Document.pushChunkUnchecked_display d c⟩

/-- C48 (stage 1), histories: the printed document is the concatenation of all pushes, in order. -/
theorem C48_history (d : Document) (vs : List ChunkVariant) (cs : List Chunk) :
    displayChunks (vs.foldl Document.pushUnchecked d) =
      displayChunks d ++ (vs.map ChunkVariant.display).flatten ∧
    displayChunks (cs.foldl Document.pushChunkUnchecked d) =
      displayChunks d ++ (cs.map Chunk.display).flatten := by
  constructor
  · induction vs generalizing d with
    | nil => simp
    | cons v vs ih => rw [List.foldl_cons, ih, (C48 d v (.mk 0 v)).1]; simp
  · induction cs generalizing d with
    | nil => simp
    | cons c cs ih => rw [List.foldl_cons, ih, (C48 d c.variant c).2]; simp

end Ast1

/-! ### Stage 2 -/

namespace Ast2

/-- C15 (stage 2, push): it succeeds iff the variant validates; on success the printed document grows by
exactly the printed variant; on failure the document is unchanged and the error is the variant's. -/
theorem C15_push (d : Document) (v : ChunkVariant) :
    (∀ d', Document.push d v = (.ok (), d') →
      v.validate = .ok () ∧ displayChunks d' = displayChunks d ++ v.display) ∧
    (∀ e d', Document.push d v = (.error e, d') → v.validate = .error e ∧ d' = d) := by
  constructor
  · intro d' h
    simp only [Document.push] at h
    split at h
    · simp at h
    · next hv =>
      refine ⟨hv, ?_⟩
      simp only [Prod.mk.injEq, true_and] at h
      rw [← h, Document.pushUnchecked, Document.pushChunkUnchecked_display]; rfl
  · intro e d' h
    simp only [Document.push] at h
    split at h
    · next e' hv =>
      simp only [Prod.mk.injEq, Except.error.injEq] at h
      rw [← h.1, ← h.2]; exact ⟨hv, rfl⟩
    · simp at h

/-- C15 (stage 2, push_chunk): the same for a chunk, whose line number must also be right. -/
theorem C15_pushChunk (d : Document) (c : Chunk) :
    (∀ d', Document.pushChunk d c = (.ok (), d') →
      c.validate = .ok () ∧ displayChunks d' = displayChunks d ++ c.display) ∧
    (∀ e d', Document.pushChunk d c = (.error e, d') → d' = d ∧
      (c.validate = .error e ∨
        (c.validate = .ok () ∧ ∃ n, n ≠ c.lineNo ∧ e = .incorrectChunkLineNumber n c.lineNo))) := by
  constructor
  · intro d' h
    simp only [Document.pushChunk] at h
    split at h
    · simp at h
    · next hv =>
      split at h
      · simp at h
      · refine ⟨hv, ?_⟩
        simp only [Prod.mk.injEq, true_and] at h
        rw [← h, Document.pushChunkUnchecked_display]
  · intro e d' h
    simp only [Document.pushChunk] at h
    split at h
    · next e' hv =>
      simp only [Prod.mk.injEq, Except.error.injEq] at h
      rw [← h.1, ← h.2]; exact ⟨rfl, .inl hv⟩
    · next hv =>
      split at h
      · next hl =>
        simp only [Prod.mk.injEq, Except.error.injEq] at h
        rw [← h.1, ← h.2]
        exact ⟨rfl, .inr ⟨hv, _, hl, rfl⟩⟩
      · simp at h

/-- C15 (stage 2, structure): a push leaves all previous chunks as they are and adds one chunk,
except that a text pushed after a text is joined to it, keeping that text's line number. -/
theorem C15_structure (d : Document) (l : Nat) (v : ChunkVariant) :
    (∃ init l' a s, d = init ++ [.mk l' (.text a)] ∧ v = .text s ∧
      Document.pushChunkUnchecked d (.mk l v) = init ++ [.mk l' (.text (a ++ s))]) ∨
    ((∀ l' a s, d.getLast? = some (.mk l' (.text a)) → v ≠ .text s) ∧
      Document.pushChunkUnchecked d (.mk l v) = d ++ [.mk l v]) := by
  simp only [Document.pushChunkUnchecked, Chunk.variant]
  split
  · next s =>
    split
    · next l' a hl => exact .inl ⟨d.dropLast, l', a, s, eq_dropLast_append hl, rfl, rfl⟩
    · next hl => exact .inr ⟨fun l' a s h => absurd h (hl l' a), rfl⟩
  · next hv => exact .inr ⟨fun _ _ s _ => hv s, rfl⟩

/-- One call of the checked building API. -/
inductive Op where
  | push (v : ChunkVariant)
  | pushChunk (c : Chunk)

/-- The document after one call (whatever the call returned). -/
def Op.apply (d : Document) : Op → Document
  | .push v => (Document.push d v).2
  | .pushChunk c => (Document.pushChunk d c).2

/-- C16 (stage 2): every history of checked calls from the empty document leads to a valid document. -/
theorem C16 (history : List Op) : Document.validate (history.foldl Op.apply []) = .ok () := by
  rw [validate_iff]
  suffices h : ∀ d, Valid d → Valid (history.foldl Op.apply d) by
    refine h [] ⟨numberedFrom_nil 1, fun v hv => ?_⟩
    cases hv <;> simp_all
  induction history with
  | nil => exact fun d h => h
  | cons op ops ih =>
    intro d h
    refine ih _ ?_
    cases op with
    | push v => exact Document.push_valid v h
    | pushChunk c => exact Document.pushChunk_valid c h

/-- Non-vacuity of C16: a history with accepted, merged and refused calls. -/
example : ([Op.push (.text chars!"a\n"), .push (.text chars!"b"), .push (.text chars!"%"),
      .pushChunk (.mk 2 (.command (.mk chars!"x" []))), .pushChunk (.mk 7 (.text chars!"y"))]).foldl
      Op.apply [] = [.mk 1 (.text chars!"a\nb"), .mk 2 (.command (.mk chars!"x" []))] := by
  decide +kernel

/-- C17 (stage 2), decision: `push_chunk` succeeds iff the chunk validates and its line is the line on which
the last chunk ends (1 for the empty document); otherwise it reports the first of the two problems. -/
theorem C17_decision (d : Document) (c : Chunk) :
    (Document.pushChunk d c).1 =
      (match c.validate with
       | .error e => .error e
       | .ok () =>
         let expected := match d.getLast? with
           | none => 1
           | some last => last.lineNo + last.display.count '\n'
         if c.lineNo = expected then .ok () else .error (.incorrectChunkLineNumber expected c.lineNo)) := by
  have hn : Document.nextLine d = (match d.getLast? with
           | none => 1
           | some last => last.lineNo + last.display.count '\n') := by
    simp only [Document.nextLine]
    cases d.getLast? with
    | none => rfl
    | some last => simp only [Chunk.lines_eq, newlines_eq_count]; omega
  simp only [Document.pushChunk, ← hn]
  rcases hv : c.validate with e | u
  · rfl
  · by_cases h : c.lineNo = Document.nextLine d
    · simp [h]
    · have : ¬ Document.nextLine d = c.lineNo := fun h' => h h'.symm
      simp [h, this]

/-- C17 (stage 2), valid documents: the expected line is the document's number of lines. -/
theorem C17_valid (d : Document) (c : Chunk) (hd : Document.validate d = .ok ()) :
    (Document.pushChunk d c).1 = .ok () ↔ c.validate = .ok () ∧ c.lineNo = Document.lines d := by
  have hv := ((validate_iff d).1 hd).1
  have hn := Document.nextLine_of_numbered hv
  have hl : Document.lines d = 1 + newlines (displayChunks d) := by
    simp [Document.lines, linesSum_eq, Nat.add_comm]
  simp only [Document.pushChunk]
  split
  · next e h => simp [h]
  · next h =>
    rw [h, hl, ← hn]
    by_cases h : c.lineNo = Document.nextLine d
    · simp [h]
    · have : ¬ Document.nextLine d = c.lineNo := fun h' => h h'.symm
      simp [h, this]

/-- Non-vacuity of C17_valid. -/
example : Document.validate [.mk 1 (.text chars!"a\nb"), .mk 2 (.command (.mk chars!"x" []))] = .ok () ∧
    (Document.pushChunk [.mk 1 (.text chars!"a\nb"), .mk 2 (.command (.mk chars!"x" []))]
      (.mk 2 (.text chars!"\nc"))).1 = .ok () := by decide +kernel

/-- C18 (stage 2): `validate` accepts exactly the valid documents. -/
theorem C18 (d : Document) : Document.validate d = .ok () ↔ Valid d := validate_iff d

/-- C18 (stage 2): `Document::new` accepts exactly the valid chunk vectors and keeps them. -/
theorem C18_new (cs : List Chunk) (d : Document) : Document.new cs = .ok d ↔ Valid cs ∧ d = cs := by
  rw [← validate_iff, Document.new]
  rcases Document.validate cs with e | u
  · simp
  · simp [eq_comm]

/-- C18 (stage 2): the checked constructors accept exactly the values all of whose nodes respect the rule. -/
theorem C18_constructors :
    (∀ n v c, Chunk.new n v = .ok c ↔ (∀ w, Within [.mk n v] w → NodeOk w) ∧ c = .mk n v) ∧
    (∀ l a c, Command.new l a = .ok c ↔
      (∀ w, Within [.mk 1 (.command (.mk l a))] w → NodeOk w) ∧ c = .mk l a) ∧
    (∀ cs sv s, Scope.new cs sv = .ok s ↔ (∀ w, Within cs w → NodeOk w) ∧ s = .mk cs sv) := by
  refine ⟨fun n v c => ?_, fun l a c => ?_, fun cs sv s => ?_⟩
  · rw [← allChunks_iff, Chunk.new]
    simp only [AllChunks, and_true, Chunk.All, ← ChunkVariant.validate_iff]
    rcases v.validate with e | u <;> simp [eq_comm]
  · rw [← allChunks_iff, Command.new]
    simp only [AllChunks, and_true, Chunk.All, ChunkVariant.All, ← Command.validate_iff]
    rcases (Command.mk l a).validate with e | u <;> simp [eq_comm]
  · rw [← allChunks_iff, Scope.new]
    simp only [← validateChunks_iff, Scope.validate]
    rcases validateChunks cs with e | u <;> simp [eq_comm]

/-- Non-vacuity of C18: a nested valid document, and an invalid one. -/
example : Document.validate [.mk 1 (.text chars!"a\n"), .mk 2 (.scope (.mk [.mk 7 (.command (.mk chars!"%" []))]
    .curly))] = .ok () ∧ Document.validate [.mk 1 (.text chars!"a\n"),
    .mk 2 (.scope (.mk [.mk 1 (.text chars!"%")] .curly))] ≠ .ok () := by decide +kernel

/-- C20 (stage 2): `lines()` of every node is one more than the number of newlines it prints. -/
theorem C20_nodes :
    (∀ c : Chunk, c.lines = c.display.count '\n' + 1) ∧
    (∀ v : ChunkVariant, v.lines = v.display.count '\n' + 1) ∧
    (∀ c : Command, c.lines = c.display.count '\n' + 1) ∧
    (∀ s : Scope, s.lines = s.display.count '\n' + 1) := by
  simp only [← newlines_eq_count]
  exact ⟨Chunk.lines_eq, ChunkVariant.lines_eq, Command.lines_eq, Scope.lines_eq⟩

/-- C20 (stage 2), documents. -/
theorem C20_document (d : Document) : Document.lines d = (displayChunks d).count '\n' + 1 := by
  rw [Document.lines, linesSum_eq, newlines_eq_count]

/-- C48 (stage 2): unchecked pushes append what is pushed. -/
theorem C48 (d : Document) (v : ChunkVariant) (c : Chunk) :
    displayChunks (Document.pushUnchecked d v) = displayChunks d ++ v.display ∧
    displayChunks (Document.pushChunkUnchecked d c) = displayChunks d ++ c.display :=
  ⟨by rw [Document.pushUnchecked, Document.pushChunkUnchecked_display]; rfl,
   Document.pushChunkUnchecked_display d c⟩

/-- C48 (stage 2), histories: the printed document is the concatenation of all pushes, in order. -/
theorem C48_history (d : Document) (vs : List ChunkVariant) (cs : List Chunk) :
    displayChunks (vs.foldl Document.pushUnchecked d) =
      displayChunks d ++ (vs.map ChunkVariant.display).flatten ∧
    displayChunks (cs.foldl Document.pushChunkUnchecked d) =
      displayChunks d ++ (cs.map Chunk.display).flatten := by
  constructor
  · induction vs generalizing d with
    | nil => simp
    | cons v vs ih => rw [List.foldl_cons, ih, (C48 d v (.mk 0 v)).1]; simp
  · induction cs generalizing d with
    | nil => simp
    | cons c cs ih => rw [List.foldl_cons, ih, (C48 d c.variant c).2]; simp

end Ast2

/-! ### Stage 2 environments -/
namespace Ast2
/-- C20 (stage 2), environments. -/
theorem C20_environment (e : Environment) : e.lines = e.display.count '\n' + 1 := by
  rw [← newlines_eq_count]; exact Environment.lines_eq e

/-- C18 (stage 2): `Environment::new`. -/
theorem C18_environment (l a c pb pe e) : Environment.new l a c pb pe = .ok e ↔
    (∀ w, Within [.mk 1 (.environment (.mk l a c pb pe))] w → NodeOk w) ∧ e = .mk l a c pb pe := by
  rw [← allChunks_iff, Environment.new]
  simp only [AllChunks, and_true, Chunk.All, ChunkVariant.All, ← Environment.validate_iff]
  rcases (Environment.mk l a c pb pe).validate with e | u <;> simp [eq_comm]
end Ast2

/-! ### Stage 3 -/
namespace Ast3

/-- The three sections of a stage-3 document. -/
inductive Section where
  | preamable
  | body
  | trailing

/-- Its chunks. -/
def Section.get (d : Document) : Section → List Chunk
  | .preamable => d.preamable
  | .body => d.body
  | .trailing => d.trailing

/-- `push_preamable`, `push_body`, `push_trailing`. -/
def Section.push (d : Document) (v : ChunkVariant) : Section → Except InternalError Unit × Document
  | .preamable => d.pushPreamable v
  | .body => d.pushBody v
  | .trailing => d.pushTrailing v

/-- `push_preamable_chunk`, `push_body_chunk`, `push_trailing_chunk`. -/
def Section.pushChunk (d : Document) (c : Chunk) : Section → Except InternalError Unit × Document
  | .preamable => d.pushPreamableChunk c
  | .body => d.pushBodyChunk c
  | .trailing => d.pushTrailingChunk c

/-- `push_preamable_unchecked`, ... -/
def Section.pushUnchecked (d : Document) (v : ChunkVariant) : Section → Document
  | .preamable => d.pushPreamableUnchecked v
  | .body => d.pushBodyUnchecked v
  | .trailing => d.pushTrailingUnchecked v

/-- `push_preamable_chunk_unchecked`, ... -/
def Section.pushChunkUnchecked (d : Document) (c : Chunk) : Section → Document
  | .preamable => d.pushPreamableChunkUnchecked c
  | .body => d.pushBodyChunkUnchecked c
  | .trailing => d.pushTrailingChunkUnchecked c

/-- `d'` agrees with `d` except possibly in section `sec`. -/
def SameExcept (sec : Section) (d d' : Document) : Prop :=
  d'.documentclass = d.documentclass ∧ d'.documentoptions = d.documentoptions ∧
  d'.bodyArgs = d.bodyArgs ∧ d'.bodyBeginPrec = d.bodyBeginPrec ∧ d'.bodyEndPrec = d.bodyEndPrec ∧
  (∀ other, other ≠ sec → other.get d' = other.get d)

theorem C15_vec (vec : List Chunk) (v : ChunkVariant) :
    (∀ vec', pushVec vec v = (.ok (), vec') →
      v.validate = .ok () ∧ displayChunks vec' = displayChunks vec ++ v.display) ∧
    (∀ e vec', pushVec vec v = (.error e, vec') → v.validate = .error e ∧ vec' = vec) := by
  simp only [pushVec]
  rcases hv : v.validate with e | u
  · simp
  · simp only [Prod.mk.injEq, true_and, reduceCtorEq, false_and, imp_self, implies_true, and_true]
    rintro vec' rfl
    rw [pushVecUnchecked, pushChunkVecUnchecked_display]; rfl

theorem C15_chunkVec (vec : List Chunk) (c : Chunk) :
    (∀ vec', pushChunkVec vec c = (.ok (), vec') →
      c.validate = .ok () ∧ displayChunks vec' = displayChunks vec ++ c.display) ∧
    (∀ e vec', pushChunkVec vec c = (.error e, vec') → vec' = vec ∧
      (c.validate = .error e ∨
        (c.validate = .ok () ∧ ∃ n, n ≠ c.lineNo ∧ e = .incorrectChunkLineNumber n c.lineNo))) := by
  simp only [pushChunkVec]
  rcases hv : c.validate with e | u
  · refine ⟨fun vec' h => by simp at h, fun e' vec' h => ?_⟩
    simp only [Prod.mk.injEq, Except.error.injEq] at h
    exact ⟨h.2.symm, .inl (by rw [h.1])⟩
  · simp only
    split
    · next hl =>
      refine ⟨fun vec' h => by simp at h, fun e' vec' h => ?_⟩
      simp only [Prod.mk.injEq, Except.error.injEq] at h
      exact ⟨h.2.symm, .inr ⟨trivial, _, hl, h.1.symm⟩⟩
    · refine ⟨fun vec' h => ?_, fun e' vec' h => by simp at h⟩
      simp only [Prod.mk.injEq, true_and] at h
      exact ⟨trivial, by rw [← h]; exact pushChunkVecUnchecked_display vec c⟩

/-- C15 (stage 3, push): as in stages 1 and 2, for each section, the rest of the document being untouched. -/
theorem C15_push (sec : Section) (d : Document) (v : ChunkVariant) :
    (∀ d', sec.push d v = (.ok (), d') → v.validate = .ok () ∧ SameExcept sec d d' ∧
      displayChunks (sec.get d') = displayChunks (sec.get d) ++ v.display) ∧
    (∀ e d', sec.push d v = (.error e, d') → v.validate = .error e ∧ d' = d) := by
  cases sec
  all_goals
    simp only [Section.push, Document.pushPreamable, Document.pushBody, Document.pushTrailing,
      Prod.mk.injEq, Section.get]
    constructor
    · rintro d' ⟨h1, rfl⟩
      first
        | have h := (C15_vec d.preamable v).1 _ (Prod.ext h1 rfl)
          refine ⟨h.1, ⟨rfl, rfl, rfl, rfl, rfl, ?_⟩, h.2⟩
          intro o ho; cases o <;> first | rfl | exact absurd rfl ho
        | have h := (C15_vec d.body v).1 _ (Prod.ext h1 rfl)
          refine ⟨h.1, ⟨rfl, rfl, rfl, rfl, rfl, ?_⟩, h.2⟩
          intro o ho; cases o <;> first | rfl | exact absurd rfl ho
        | have h := (C15_vec d.trailing v).1 _ (Prod.ext h1 rfl)
          refine ⟨h.1, ⟨rfl, rfl, rfl, rfl, rfl, ?_⟩, h.2⟩
          intro o ho; cases o <;> first | rfl | exact absurd rfl ho
    · rintro e d' ⟨h1, rfl⟩
      first
        | have h := (C15_vec d.preamable v).2 _ _ (Prod.ext h1 rfl); exact ⟨h.1, by cases d; simp_all⟩
        | have h := (C15_vec d.body v).2 _ _ (Prod.ext h1 rfl); exact ⟨h.1, by cases d; simp_all⟩
        | have h := (C15_vec d.trailing v).2 _ _ (Prod.ext h1 rfl); exact ⟨h.1, by cases d; simp_all⟩

/-- C15 (stage 3, push_chunk). -/
theorem C15_pushChunk (sec : Section) (d : Document) (c : Chunk) :
    (∀ d', sec.pushChunk d c = (.ok (), d') → c.validate = .ok () ∧ SameExcept sec d d' ∧
      displayChunks (sec.get d') = displayChunks (sec.get d) ++ c.display) ∧
    (∀ e d', sec.pushChunk d c = (.error e, d') → d' = d ∧
      (c.validate = .error e ∨
        (c.validate = .ok () ∧ ∃ n, n ≠ c.lineNo ∧ e = .incorrectChunkLineNumber n c.lineNo))) := by
  cases sec
  all_goals
    simp only [Section.pushChunk, Document.pushPreamableChunk, Document.pushBodyChunk,
      Document.pushTrailingChunk, Prod.mk.injEq, Section.get]
    constructor
    · rintro d' ⟨h1, rfl⟩
      first
        | have h := (C15_chunkVec d.preamable c).1 _ (Prod.ext h1 rfl)
          refine ⟨h.1, ⟨rfl, rfl, rfl, rfl, rfl, ?_⟩, h.2⟩
          intro o ho; cases o <;> first | rfl | exact absurd rfl ho
        | have h := (C15_chunkVec d.body c).1 _ (Prod.ext h1 rfl)
          refine ⟨h.1, ⟨rfl, rfl, rfl, rfl, rfl, ?_⟩, h.2⟩
          intro o ho; cases o <;> first | rfl | exact absurd rfl ho
        | have h := (C15_chunkVec d.trailing c).1 _ (Prod.ext h1 rfl)
          refine ⟨h.1, ⟨rfl, rfl, rfl, rfl, rfl, ?_⟩, h.2⟩
          intro o ho; cases o <;> first | rfl | exact absurd rfl ho
    · rintro e d' ⟨h1, rfl⟩
      first
        | have h := (C15_chunkVec d.preamable c).2 _ _ (Prod.ext h1 rfl); exact ⟨by cases d; simp_all, h.2⟩
        | have h := (C15_chunkVec d.body c).2 _ _ (Prod.ext h1 rfl); exact ⟨by cases d; simp_all, h.2⟩
        | have h := (C15_chunkVec d.trailing c).2 _ _ (Prod.ext h1 rfl); exact ⟨by cases d; simp_all, h.2⟩

/-- C48 (stage 3): unchecked pushes to a section append there and touch nothing else. -/
theorem C48 (sec : Section) (d : Document) (v : ChunkVariant) (c : Chunk) :
    SameExcept sec d (sec.pushUnchecked d v) ∧ SameExcept sec d (sec.pushChunkUnchecked d c) ∧
    displayChunks (sec.get (sec.pushUnchecked d v)) = displayChunks (sec.get d) ++ v.display ∧
    displayChunks (sec.get (sec.pushChunkUnchecked d c)) = displayChunks (sec.get d) ++ c.display := by
  cases sec
  all_goals
    refine ⟨⟨rfl, rfl, rfl, rfl, rfl, ?_⟩, ⟨rfl, rfl, rfl, rfl, rfl, ?_⟩, ?_, ?_⟩
    · intro o ho; cases o <;> first | rfl | exact absurd rfl ho
    · intro o ho; cases o <;> first | rfl | exact absurd rfl ho
    · exact pushChunkVecUnchecked_display _ _
    · exact pushChunkVecUnchecked_display _ _

/-- One unchecked push. -/
inductive UOp where
  | push (sec : Section) (v : ChunkVariant)
  | pushChunk (sec : Section) (c : Chunk)

/-- Its effect. -/
def UOp.apply (d : Document) : UOp → Document
  | .push sec v => sec.pushUnchecked d v
  | .pushChunk sec c => sec.pushChunkUnchecked d c

deriving instance DecidableEq for Section

/-- What an unchecked push prints in section `sec` (nothing if it goes to another section). -/
def UOp.printed (sec : Section) : UOp → Str
  | .push sec' v => if sec' = sec then v.display else []
  | .pushChunk sec' c => if sec' = sec then c.display else []

/-- C48 (stage 3), histories: each section prints the concatenation of what was pushed to it. -/
theorem C48_history (sec : Section) (ops : List UOp) (d : Document) :
    displayChunks (sec.get (ops.foldl UOp.apply d)) =
      displayChunks (sec.get d) ++ (ops.map (UOp.printed sec)).flatten := by
  induction ops generalizing d with
  | nil => simp
  | cons op ops ih =>
    rw [List.foldl_cons, ih, List.map_cons, List.flatten_cons, ← List.append_assoc]
    congr 1
    cases op with
    | push sec' v =>
      have h := C48 sec' d v (.mk 0 v)
      simp only [UOp.apply, UOp.printed]
      by_cases he : sec' = sec
      · subst he; simp [h.2.2.1]
      · simp [he, h.1.2.2.2.2.2 sec (fun h => he h.symm)]
    | pushChunk sec' c =>
      have h := C48 sec' d c.variant c
      simp only [UOp.apply, UOp.printed]
      by_cases he : sec' = sec
      · subst he; simp [h.2.2.2]
      · simp [he, h.2.1.2.2.2.2.2 sec (fun h => he h.symm)]

/-- C18 (stage 3): `validate` accepts exactly the documents whose three sections are valid. -/
theorem C18 (d : Document) : d.validate = .ok () ↔
    ValidSection d.preamable ∧ ValidSection d.body ∧ ValidSection d.trailing := validate_iff d

/-- C18 (stage 3), `Document::new`. -/
theorem C18_new (d d' : Document) : Document.new d = .ok d' ↔
    (ValidSection d.preamable ∧ ValidSection d.body ∧ ValidSection d.trailing) ∧ d' = d := by
  rw [← validate_iff, Document.new]
  rcases d.validate with e | u <;> simp [eq_comm]

/-- C18 (stage 3): the checked constructors. -/
theorem C18_constructors :
    (∀ n v c, Chunk.new n v = .ok c ↔ (∀ w, Within [.mk n v] w → NodeOk w) ∧ c = .mk n v) ∧
    (∀ l a c, Command.new l a = .ok c ↔
      (∀ w, Within [.mk 1 (.command (.mk l a))] w → NodeOk w) ∧ c = .mk l a) ∧
    (∀ cs sv s, Scope.new cs sv = .ok s ↔ (∀ w, Within cs w → NodeOk w) ∧ s = .mk cs sv) ∧
    (∀ l a c pb pe e, Environment.new l a c pb pe = .ok e ↔
      (∀ w, Within [.mk 1 (.environment (.mk l a c pb pe))] w → NodeOk w) ∧ e = .mk l a c pb pe) ∧
    (∀ mv mt c m, MathsBlock.new mv mt c = .ok m ↔ (∀ w, Within c w → NodeOk w) ∧ m = .mk mv mt c) := by
  refine ⟨fun n v c => ?_, fun l a c => ?_, fun cs sv s => ?_, fun l a c pb pe e => ?_,
    fun mv mt c m => ?_⟩
  · rw [← allChunks_iff, Chunk.new]
    simp only [AllChunks, and_true, Chunk.All, ← ChunkVariant.validate_iff]
    rcases v.validate with e | u <;> simp [eq_comm]
  · rw [← allChunks_iff, Command.new]
    simp only [AllChunks, and_true, Chunk.All, ChunkVariant.All, ← Command.validate_iff]
    rcases (Command.mk l a).validate with e | u <;> simp [eq_comm]
  · rw [← allChunks_iff, Scope.new]
    simp only [← validateChunks_iff, Scope.validate]
    rcases validateChunks cs with e | u <;> simp [eq_comm]
  · rw [← allChunks_iff, Environment.new]
    simp only [AllChunks, and_true, Chunk.All, ChunkVariant.All, ← Environment.validate_iff]
    rcases (Environment.mk l a c pb pe).validate with e | u <;> simp [eq_comm]
  · rw [← allChunks_iff, MathsBlock.new]
    simp only [← validateChunks_iff, MathsBlock.validate]
    rcases validateChunks c with e | u <;> simp [eq_comm]

/-- Non-vacuity of C18 (stage 3): a text with a paragraph gap is refused, a break is accepted. -/
example : Chunk.new 1 (.paragraphBreak chars!"\n \n") = .ok (.mk 1 (.paragraphBreak chars!"\n \n")) ∧
    Chunk.new 1 (.text chars!"a\n \nb") = .error .unbrokenParagraph := by decide +kernel

/-- C20 (stage 3): `lines()` of every node is one more than the number of newlines it prints. -/
theorem C20_nodes :
    (∀ c : Chunk, c.lines = c.display.count '\n' + 1) ∧
    (∀ v : ChunkVariant, v.lines = v.display.count '\n' + 1) ∧
    (∀ c : Command, c.lines = c.display.count '\n' + 1) ∧
    (∀ s : Scope, s.lines = s.display.count '\n' + 1) ∧
    (∀ e : Environment, e.lines = e.display.count '\n' + 1) ∧
    (∀ m : MathsBlock, m.lines = m.display.count '\n' + 1) := by
  simp only [← newlines_eq_count]
  exact ⟨Chunk.lines_eq, ChunkVariant.lines_eq, Command.lines_eq, Scope.lines_eq,
    Environment.lines_eq, MathsBlock.lines_eq⟩

/-- C20 (stage 3), documents: PARTIAL. `Document::lines` (src/ast3/document.rs:56-66) ignores the newlines
of the body's arguments and of the strings before `{document}`; the difference is exactly those.
Full statement (false, see `C20_document_false`): `d.lines = d.display.count '\n' + 1`. -/
theorem C20_document_partial (d : Document) :
    d.display.count '\n' + 1 =
      d.lines + (displayArgs d.bodyArgs).count '\n' + 2 * d.bodyBeginPrec.count '\n' := by
  simp only [← newlines_eq_count, Document.lines, linesSum_eq, Document.display, displayChunks_append,
    newlines_append, displayChunks_cons, displayChunks_nil, Chunk.display, ChunkVariant.display,
    Command.display, displayArgs, List.append_nil, documentScope, Scope.display]
  simp [newlines_cons, ScopeVariant.opening, ScopeVariant.closing]
  omega

/-- C20 (stage 3), documents: exact as soon as the body arguments and the string before `{document}` have no newline. -/
theorem C20_document_exact_partial (d : Document) (ha : '\n' ∉ displayArgs d.bodyArgs)
    (hp : '\n' ∉ d.bodyBeginPrec) : d.lines = d.display.count '\n' + 1 := by
  have h := C20_document_partial d
  rw [List.count_eq_zero_of_not_mem ha, List.count_eq_zero_of_not_mem hp] at h
  omega

/-- The full document statement of C20 fails in stage 3. -/
theorem C20_document_false : ∃ d : Document, d.lines ≠ d.display.count '\n' + 1 :=
  ⟨{ Document.default with bodyBeginPrec := chars!"\n" }, by decide +kernel⟩

/-- One checked call on a stage-3 document. -/
inductive Op where
  | push (sec : Section) (v : ChunkVariant)
  | pushChunk (sec : Section) (c : Chunk)

/-- The document after the call. -/
def Op.apply (d : Document) : Op → Document
  | .push sec v => (sec.push d v).2
  | .pushChunk sec c => (sec.pushChunk d c).2

/-- C43 is false: two valid texts pushed one after the other are joined into a text with a
paragraph gap, which `validate` refuses. -/
theorem C43_false : ∃ history : List Op,
    Document.validate (history.foldl Op.apply Document.default) = .error .unbrokenParagraph :=
  ⟨[.push .body (.text chars!"a\n"), .push .body (.text chars!"\nb")], by decide +kernel⟩

/-- What every history of checked calls guarantees of a section: correct line numbers, and every node
valid except that a top-level text may contain a paragraph gap. -/
def ValidUpToGaps (cs : List Chunk) : Prop :=
  NumberedFrom 1 cs ∧
  ∀ c ∈ cs, (∃ l s, c = .mk l (.text s) ∧ Spec.Sanitised s) ∨ ∀ v, Within [c] v → NodeOk v

theorem okG_iff (c : Chunk) : c.OkG ↔
    ((∃ l s, c = .mk l (.text s) ∧ Spec.Sanitised s) ∨ ∀ v, Within [c] v → NodeOk v) := by
  have hall : (∀ v, Within [c] v → NodeOk v) ↔ c.All NodeOk := by
    rw [← allChunks_iff]; simp [AllChunks]
  rw [hall]
  constructor
  · intro h
    obtain ⟨l, v⟩ := c
    cases v with
    | text s => exact .inl ⟨l, s, rfl, h⟩
    | _ => exact .inr h
  · rintro (⟨l, s, rfl, h⟩ | h)
    · exact h
    · exact h.okG

theorem pushVec_gaps {vec : List Chunk} (v : ChunkVariant)
    (h : NumberedFrom 1 vec ∧ ∀ c ∈ vec, c.OkG) :
    NumberedFrom 1 (pushVec vec v).2 ∧ ∀ c ∈ (pushVec vec v).2, c.OkG := by
  simp only [pushVec]
  rcases hv : v.validate with e | u
  · exact h
  · refine ⟨pushChunkVecUnchecked_numbered h.1 ?_, pushChunkVecUnchecked_okG h.2 ?_⟩
    · simp [Chunk.lineNo, nextLine_of_numbered h.1]
    · exact Chunk.All.okG (by simpa [Chunk.All] using (ChunkVariant.validate_iff v).1 hv)

theorem pushChunkVec_gaps {vec : List Chunk} (c : Chunk)
    (h : NumberedFrom 1 vec ∧ ∀ c ∈ vec, c.OkG) :
    NumberedFrom 1 (pushChunkVec vec c).2 ∧ ∀ x ∈ (pushChunkVec vec c).2, x.OkG := by
  simp only [pushChunkVec]
  rcases hv : c.validate with e | u
  · exact h
  · simp only
    split
    · exact h
    · next hl =>
      refine ⟨pushChunkVecUnchecked_numbered h.1 ?_, pushChunkVecUnchecked_okG h.2 ?_⟩
      · rw [← nextLine_of_numbered h.1]; simp at hl; exact hl.symm
      · exact Chunk.All.okG ((Chunk.validate_iff c).1 hv)

/-- C43, PARTIAL (every history): all sections are valid up to paragraph gaps in top-level texts.
Full statement (false, see `C43_false`): `Document.validate (history.foldl Op.apply .default) = .ok ()`. -/
theorem C43_partial (history : List Op) (sec : Section) :
    ValidUpToGaps (sec.get (history.foldl Op.apply Document.default)) := by
  suffices h : ∀ d : Document, (∀ sec : Section, NumberedFrom 1 (sec.get d) ∧ ∀ c ∈ sec.get d, c.OkG) →
      ∀ sec : Section, NumberedFrom 1 (sec.get (history.foldl Op.apply d)) ∧
        ∀ c ∈ sec.get (history.foldl Op.apply d), c.OkG by
    have h0 := h Document.default (by
      intro sec; cases sec <;> exact ⟨numberedFrom_nil 1, by simp [Section.get, Document.default]⟩) sec
    exact ⟨h0.1, fun c hc => (okG_iff c).1 (h0.2 c hc)⟩
  induction history with
  | nil => exact fun d h => h
  | cons op ops ih =>
    intro d h
    refine ih _ ?_
    intro sec
    cases op with
    | push sec' v => 
      cases sec' <;> cases sec <;>
        first
          | exact h .preamable
          | exact h .body
          | exact h .trailing
          | exact pushVec_gaps v (h .preamable)
          | exact pushVec_gaps v (h .body)
          | exact pushVec_gaps v (h .trailing)
    | pushChunk sec' c =>
      cases sec' <;> cases sec <;>
        first
          | exact h .preamable
          | exact h .body
          | exact h .trailing
          | exact pushChunkVec_gaps c (h .preamable)
          | exact pushChunkVec_gaps c (h .body)
          | exact pushChunkVec_gaps c (h .trailing)

/-- C43, PARTIAL (one call): a checked call keeps a valid section valid unless it joins a text to a text. -/
theorem C43_step_partial (vec : List Chunk) (h : ValidSection vec) :
    (∀ v, (∀ l s s', vec.getLast? = some (.mk l (.text s)) → v ≠ .text s') →
      ValidSection (pushVec vec v).2) ∧
    (∀ c, (∀ l s s', vec.getLast? = some (.mk l (.text s)) → c.variant ≠ .text s') →
      ValidSection (pushChunkVec vec c).2) := by
  have hall := h
  rw [ValidSection, ← allChunks_iff] at hall
  constructor
  · intro v hm
    simp only [pushVec]
    rcases hv : v.validate with e | u
    · exact h
    · rw [ValidSection, ← allChunks_iff]
      refine ⟨pushChunkVecUnchecked_numbered h.1 ?_, pushChunkVecUnchecked_allOk hall.2 ?_ ?_⟩
      · simp [Chunk.lineNo, nextLine_of_numbered h.1]
      · simpa [Chunk.All] using (ChunkVariant.validate_iff v).1 hv
      · intro l s l' s' hl he
        injection he with _ he
        exact hm l s s' hl he
  · intro c hm
    simp only [pushChunkVec]
    rcases hv : c.validate with e | u
    · exact h
    · simp only
      split
      · exact h
      · next hl =>
        rw [ValidSection, ← allChunks_iff]
        refine ⟨pushChunkVecUnchecked_numbered h.1 ?_, pushChunkVecUnchecked_allOk hall.2 ?_ ?_⟩
        · rw [← nextLine_of_numbered h.1]; simp at hl; exact hl.symm
        · exact (Chunk.validate_iff c).1 hv
        · intro l s l' s' hl he
          exact hm l s s' hl (by rw [he]; rfl)

/-- Non-vacuity of C43_step_partial: a valid section ending in a break, then a text. -/
example : validateFrom 1 [.mk 1 (.text chars!"a"), .mk 1 (.paragraphBreak chars!"\n\n")] = .ok () ∧
    (pushVec [.mk 1 (.text chars!"a"), .mk 1 (.paragraphBreak chars!"\n\n")] (.text chars!"b")).2 =
      [.mk 1 (.text chars!"a"), .mk 1 (.paragraphBreak chars!"\n\n"), .mk 3 (.text chars!"b")] := by
  decide +kernel

end Ast3

end LatexAst
