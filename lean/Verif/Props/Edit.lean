import Verif.Proofs.Edit
import Verif.Props.Building

/-!
# C70: editing a document in place

`Edit v v' w w'` (`Spec/Edit.lean`): `w'` is `w` with the node `v`, at any depth, replaced by `v'`. In the code: `variant_mut` of
a chunk, or `decompose` and `new_unchecked`.
-/

namespace LatexAst

namespace Ast1
open Spec

/-- C70 (stage 1): an edit changes the printed document at one place only, from the old node's text to the new node's. -/
theorem C70_text (pre : List Chunk) (l : Nat) (w w' v v' : ChunkVariant) (post : List Chunk) (h : Edit v v' w w') :
    ∃ a b, displayChunks (pre ++ .mk l w :: post) = a ++ (v.display ++ b) ∧
      displayChunks (pre ++ .mk l w' :: post) = a ++ (v'.display ++ b) := by
  obtain ⟨a, b, ha, hb⟩ := h.display
  exact ⟨displayChunks pre ++ a, b ++ displayChunks post, by simp [displayChunks, Chunk.display, ha],
    by simp [displayChunks, Chunk.display, hb]⟩

/-- C70 (stage 1): `lines()` changes by as much as the node's. -/
theorem C70_lines (pre : List Chunk) (l : Nat) (w w' v v' : ChunkVariant) (post : List Chunk) (h : Edit v v' w w') :
    Document.lines (pre ++ .mk l w' :: post) + v.lines = Document.lines (pre ++ .mk l w :: post) + v'.lines := by
  obtain ⟨a, b, ha, hb⟩ := C70_text pre l w w' v v' post h
  rw [C20_document, C20_document, ha, hb, C20_nodes.2.1, C20_nodes.2.1]
  simp only [List.count_append]
  omega

/-- C70 (stage 1): after an edit anywhere below one top-level chunk of a valid document, the document validates if and only
if the new node does, and either has as many lines as the old one or nothing follows the edited chunk. -/
theorem C70_valid (pre : List Chunk) (l : Nat) (w w' v v' : ChunkVariant) (post : List Chunk) (h : Edit v v' w w')
    (hd : Document.validate (pre ++ .mk l w :: post) = .ok ()) :
    Document.validate (pre ++ .mk l w' :: post) = .ok () ↔ v'.validate = .ok () ∧ (post = [] ∨ v'.lines = v.lines) := by
  rw [validate_iff] at hd ⊢
  have hv : v'.lines = v.lines ↔ v'.display.count '\n' = v.display.count '\n' := by
    rw [ChunkVariant.lines_eq, ChunkVariant.lines_eq, newlines_eq_count, newlines_eq_count]; omega
  rw [ChunkVariant.validate_iff, hv]
  obtain ⟨h1, h2⟩ := hd
  rw [← allChunks_iff] at h2
  simp only [allChunks_append, AllChunks, Chunk.All] at h2
  unfold Valid
  rw [h.numbered h1, ← allChunks_iff, allChunks_append, AllChunks, Chunk.All, h.all h2.2.1]
  grind

/-- A history of edits: each replaces a node, at any depth, by a valid node with as many lines. -/
inductive Edits : Document → Document → Prop
  | done {d} : Edits d d
  | edit {d pre l w w' v v' post} : Edits d (pre ++ .mk l w :: post) → Edit v v' w w' → v'.validate = .ok () → v'.lines = v.lines →
      Edits d (pre ++ .mk l w' :: post)

/-- C70 (stage 1): after any history of such edits a valid document is still valid, with as many lines. -/
theorem C70_history (d d' : Document) (h : Edits d d') (hd : Document.validate d = .ok ()) :
    Document.validate d' = .ok () ∧ Document.lines d' = Document.lines d := by
  induction h with
  | done => exact ⟨hd, rfl⟩
  | @edit pre l w w' v v' post _ he hv hl ih =>
    obtain ⟨h1, h2⟩ := ih
    have := C70_lines pre l w w' v v' post he
    exact ⟨(C70_valid _ _ _ _ _ _ _ he h1).2 ⟨hv, .inr hl⟩, by omega⟩

/-- The hypotheses are met: the text `b` in an argument inside a scope of a valid document, with a chunk following; it may
become `c`, but not `c\n` nor `%`. -/
example : Edit (.text chars!"b") (.text chars!"c")
      (.scope (.mk [.mk 1 (.command (.mk chars!"foo" [([], .mk [.mk 1 (.text chars!"b")] .square)]))] .curly))
      (.scope (.mk [.mk 1 (.command (.mk chars!"foo" [([], .mk [.mk 1 (.text chars!"c")] .square)]))] .curly)) ∧
    Document.validate ([] ++ .mk 1 (.scope (.mk [.mk 1 (.command (.mk chars!"foo" [([], .mk [.mk 1 (.text chars!"b")] .square)]))] .curly)) ::
      [.mk 1 (.text chars!"x")]) = .ok () ∧
    (ChunkVariant.text chars!"c").validate = .ok () ∧ (ChunkVariant.text chars!"%").validate ≠ .ok () ∧
    (ChunkVariant.text chars!"c\n").lines ≠ (ChunkVariant.text chars!"b").lines :=
  ⟨.scope (pre := []) (post := []) (.arg (apre := []) (apost := []) (pre := []) (post := []) .here), by decide +kernel,
    by decide +kernel, by decide +kernel, by decide⟩

end Ast1

namespace Ast2
open Spec

/-- C70 (stage 2): an edit changes the printed document at one place only, from the old node's text to the new node's. -/
theorem C70_text (pre : List Chunk) (l : Nat) (w w' v v' : ChunkVariant) (post : List Chunk) (h : Edit v v' w w') :
    ∃ a b, displayChunks (pre ++ .mk l w :: post) = a ++ (v.display ++ b) ∧
      displayChunks (pre ++ .mk l w' :: post) = a ++ (v'.display ++ b) := by
  obtain ⟨a, b, ha, hb⟩ := h.display
  exact ⟨displayChunks pre ++ a, b ++ displayChunks post, by simp [displayChunks, Chunk.display, ha],
    by simp [displayChunks, Chunk.display, hb]⟩

/-- C70 (stage 2): `lines()` changes by as much as the node's. -/
theorem C70_lines (pre : List Chunk) (l : Nat) (w w' v v' : ChunkVariant) (post : List Chunk) (h : Edit v v' w w') :
    Document.lines (pre ++ .mk l w' :: post) + v.lines = Document.lines (pre ++ .mk l w :: post) + v'.lines := by
  obtain ⟨a, b, ha, hb⟩ := C70_text pre l w w' v v' post h
  rw [C20_document, C20_document, ha, hb, C20_nodes.2.1, C20_nodes.2.1]
  simp only [List.count_append]
  omega

/-- C70 (stage 2): after an edit anywhere below one top-level chunk of a valid document, the document validates if and only
if the new node does, and either has as many lines as the old one or nothing follows the edited chunk. -/
theorem C70_valid (pre : List Chunk) (l : Nat) (w w' v v' : ChunkVariant) (post : List Chunk) (h : Edit v v' w w')
    (hd : Document.validate (pre ++ .mk l w :: post) = .ok ()) :
    Document.validate (pre ++ .mk l w' :: post) = .ok () ↔ v'.validate = .ok () ∧ (post = [] ∨ v'.lines = v.lines) := by
  rw [validate_iff] at hd ⊢
  have hv : v'.lines = v.lines ↔ v'.display.count '\n' = v.display.count '\n' := by
    rw [ChunkVariant.lines_eq, ChunkVariant.lines_eq, newlines_eq_count, newlines_eq_count]; omega
  rw [ChunkVariant.validate_iff, hv]
  obtain ⟨h1, h2⟩ := hd
  rw [← allChunks_iff] at h2
  simp only [allChunks_append, AllChunks, Chunk.All] at h2
  unfold Valid
  rw [h.numbered h1, ← allChunks_iff, allChunks_append, AllChunks, Chunk.All, h.all h2.2.1]
  grind

/-- A history of edits: each replaces a node, at any depth, by a valid node with as many lines. -/
inductive Edits : Document → Document → Prop
  | done {d} : Edits d d
  | edit {d pre l w w' v v' post} : Edits d (pre ++ .mk l w :: post) → Edit v v' w w' → v'.validate = .ok () → v'.lines = v.lines →
      Edits d (pre ++ .mk l w' :: post)

/-- C70 (stage 2): after any history of such edits a valid document is still valid, with as many lines. -/
theorem C70_history (d d' : Document) (h : Edits d d') (hd : Document.validate d = .ok ()) :
    Document.validate d' = .ok () ∧ Document.lines d' = Document.lines d := by
  induction h with
  | done => exact ⟨hd, rfl⟩
  | @edit pre l w w' v v' post _ he hv hl ih =>
    obtain ⟨h1, h2⟩ := ih
    have := C70_lines pre l w w' v v' post he
    exact ⟨(C70_valid _ _ _ _ _ _ _ he h1).2 ⟨hv, .inr hl⟩, by omega⟩

/-- The hypotheses are met: the text of an environment. -/
example : Edit (.text chars!"b\n") (.text chars!"\nc")
      (.environment (.mk chars!"it" [] [.mk 1 (.text chars!"b\n")] [] []))
      (.environment (.mk chars!"it" [] [.mk 1 (.text chars!"\nc")] [] [])) ∧
    Document.validate ([] ++ .mk 1 (.environment (.mk chars!"it" [] [.mk 1 (.text chars!"b\n")] [] [])) ::
      [.mk 2 (.text chars!"x")]) = .ok () ∧
    (ChunkVariant.text chars!"\nc").validate = .ok () ∧
    (ChunkVariant.text chars!"\nc").lines = (ChunkVariant.text chars!"b\n").lines :=
  ⟨.envContent (pre := []) (post := []) .here, by decide +kernel, by decide +kernel, by decide⟩

end Ast2

namespace Ast3
open Spec

/-- C70 (stage 3): an edit in a section changes the printed document at one place only, from the old node's text to the new
node's. -/
theorem C70_text (d : Document) (pre : List Chunk) (l : Nat) (w w' v v' : ChunkVariant) (post : List Chunk) (h : Edit v v' w w') :
    (d.preamable = pre ++ .mk l w :: post → ∃ a b, d.display = a ++ (v.display ++ b) ∧
      ({ d with preamable := pre ++ .mk l w' :: post } : Document).display = a ++ (v'.display ++ b)) ∧
    (d.body = pre ++ .mk l w :: post → ∃ a b, d.display = a ++ (v.display ++ b) ∧
      ({ d with body := pre ++ .mk l w' :: post } : Document).display = a ++ (v'.display ++ b)) ∧
    (d.trailing = pre ++ .mk l w :: post → ∃ a b, d.display = a ++ (v.display ++ b) ∧
      ({ d with trailing := pre ++ .mk l w' :: post } : Document).display = a ++ (v'.display ++ b)) := by
  have hd : ∀ d : Document, ∃ x y, (∀ p, ({ d with preamable := p } : Document).display = displayChunks p ++ (x ++ (displayChunks d.body ++ (y ++ displayChunks d.trailing)))) ∧
      (∀ p, ({ d with body := p } : Document).display = displayChunks d.preamable ++ (x ++ (displayChunks p ++ (y ++ displayChunks d.trailing)))) ∧
      (∀ p, ({ d with trailing := p } : Document).display = displayChunks d.preamable ++ (x ++ (displayChunks d.body ++ (y ++ displayChunks p)))) := by
    intro d
    refine ⟨displayChunks [.mk 1 (.command (.mk chars!"begin" ((d.bodyBeginPrec, documentScope) :: d.bodyArgs)))],
      displayChunks [.mk 1 (.command (.mk chars!"end" [(d.bodyBeginPrec, documentScope)]))], ?_⟩
    simp only [Document.display, displayChunks_append, implies_true, and_self]
  obtain ⟨a, b, ha, hb⟩ := h.display
  have e1 : displayChunks (pre ++ .mk l w :: post) = displayChunks pre ++ (a ++ (v.display ++ (b ++ displayChunks post))) := by
    simp [displayChunks, Chunk.display, ha]
  have e2 : displayChunks (pre ++ .mk l w' :: post) = displayChunks pre ++ (a ++ (v'.display ++ (b ++ displayChunks post))) := by
    simp [displayChunks, Chunk.display, hb]
  obtain ⟨x, y, h1, h2, h3⟩ := hd d
  have hp := h1 d.preamable
  have hp' : d.display = displayChunks d.preamable ++ (x ++ (displayChunks d.body ++ (y ++ displayChunks d.trailing))) := hp
  refine ⟨fun e => ?_, fun e => ?_, fun e => ?_⟩
  · refine ⟨displayChunks pre ++ a, b ++ (displayChunks post ++ (x ++ (displayChunks d.body ++ (y ++ displayChunks d.trailing)))), ?_, ?_⟩
    · rw [hp', e, e1]; simp
    · rw [h1, e2]; simp
  · refine ⟨displayChunks d.preamable ++ (x ++ (displayChunks pre ++ a)), b ++ (displayChunks post ++ (y ++ displayChunks d.trailing)), ?_, ?_⟩
    · rw [hp', e, e1]; simp
    · rw [h2, e2]; simp
  · refine ⟨displayChunks d.preamable ++ (x ++ (displayChunks d.body ++ (y ++ (displayChunks pre ++ a)))), b ++ displayChunks post, ?_, ?_⟩
    · rw [hp', e, e1]; simp
    · rw [h3, e2]; simp

theorem edit_section {pre : List Chunk} {l : Nat} {w w' v v' : ChunkVariant} {post : List Chunk} (h : Edit v v' w w')
    (hd : ValidSection (pre ++ .mk l w :: post)) :
    ValidSection (pre ++ .mk l w' :: post) ↔ v'.validate = .ok () ∧ (post = [] ∨ v'.lines = v.lines) := by
  have hv : v'.lines = v.lines ↔ v'.display.count '\n' = v.display.count '\n' := by
    rw [ChunkVariant.lines_eq, ChunkVariant.lines_eq, newlines_eq_count, newlines_eq_count]; omega
  rw [ChunkVariant.validate_iff, hv]
  obtain ⟨h1, h2⟩ := hd
  rw [← allChunks_iff] at h2
  simp only [allChunks_append, AllChunks, Chunk.All] at h2
  unfold ValidSection
  rw [h.numbered h1, ← allChunks_iff, allChunks_append, AllChunks, Chunk.All, h.all h2.2.1]
  grind

/-- C70 (stage 3): after an edit anywhere below one chunk of a section of a valid document, the document validates if and
only if the new node does, and either has as many lines as the old one or nothing follows the edited chunk in its section. -/
theorem C70_valid (d : Document) (pre : List Chunk) (l : Nat) (w w' v v' : ChunkVariant) (post : List Chunk) (h : Edit v v' w w')
    (hd : d.validate = .ok ()) :
    (d.preamable = pre ++ .mk l w :: post →
      (({ d with preamable := pre ++ .mk l w' :: post } : Document).validate = .ok () ↔ v'.validate = .ok () ∧ (post = [] ∨ v'.lines = v.lines))) ∧
    (d.body = pre ++ .mk l w :: post →
      (({ d with body := pre ++ .mk l w' :: post } : Document).validate = .ok () ↔ v'.validate = .ok () ∧ (post = [] ∨ v'.lines = v.lines))) ∧
    (d.trailing = pre ++ .mk l w :: post →
      (({ d with trailing := pre ++ .mk l w' :: post } : Document).validate = .ok () ↔ v'.validate = .ok () ∧ (post = [] ∨ v'.lines = v.lines))) := by
  rw [validate_iff] at hd
  obtain ⟨h1, h2, h3⟩ := hd
  refine ⟨fun e => ?_, fun e => ?_, fun e => ?_⟩
  · rw [validate_iff, ← edit_section h (e ▸ h1)]; simp [h2, h3]
  · rw [validate_iff, ← edit_section h (e ▸ h2)]; simp [h1, h3]
  · rw [validate_iff, ← edit_section h (e ▸ h3)]; simp [h1, h2]

/-- The hypotheses are met: the content of a maths block in the body. -/
example : Edit (.text chars!"b") (.text chars!"c")
      (.mathsBlock (.mk .dollars .inline [.mk 1 (.text chars!"b")])) (.mathsBlock (.mk .dollars .inline [.mk 1 (.text chars!"c")])) ∧
    (Document.mk none [] [] [.mk 1 (.mathsBlock (.mk .dollars .inline [.mk 1 (.text chars!"b")])), .mk 1 (.text chars!"x")] [] [] [] []).validate = .ok () ∧
    (ChunkVariant.text chars!"c").validate = .ok () ∧
    (ChunkVariant.text chars!"c").lines = (ChunkVariant.text chars!"b").lines :=
  ⟨.maths (pre := []) (post := []) .here, by decide +kernel, by decide +kernel, by decide⟩

end Ast3
end LatexAst
