import Verif.Proofs.Valid

/-! Helper lemmas about pushing, for the three stages. -/

namespace LatexAst

theorem eq_dropLast_append {α} {l : List α} {x : α} (h : l.getLast? = some x) :
    l = l.dropLast ++ [x] := by
  induction l with
  | nil => simp at h
  | cons a l ih =>
    cases l with
    | nil => simp at h; simp [h]
    | cons b l =>
      rw [List.getLast?_cons_cons] at h
      rw [List.dropLast_cons_of_ne_nil (by simp), List.cons_append, ← ih h]


namespace Ast1

theorem Document.pushChunkUnchecked_display (d : Document) (c : Chunk) :
    displayChunks (Document.pushChunkUnchecked d c) = displayChunks d ++ c.display := by
  obtain ⟨l, v⟩ := c
  simp only [Document.pushChunkUnchecked, Chunk.variant]
  split
  · split
    · next s l' ls hl =>
      have h := eq_dropLast_append hl
      conv => rhs; rw [h]
      simp [displayChunks_cons, Chunk.display, ChunkVariant.display]
    · simp [displayChunks_cons]
  · simp [displayChunks_cons]

theorem Document.nextLine_of_numbered {d : Document} (h : NumberedFrom 1 d) :
    Document.nextLine d = 1 + newlines (displayChunks d) := by
  simp only [Document.nextLine]
  split
  · next last hl =>
    have he := eq_dropLast_append hl
    have h1 := h d.dropLast last [] he
    rw [h1, Chunk.lines_eq]
    conv => rhs; rw [he]
    simp [displayChunks_cons, newlines_eq_count]; omega
  · next hl =>
    have : d = [] := List.getLast?_eq_none_iff.1 hl
    simp [this]

theorem Document.pushChunkUnchecked_numbered {d : Document} {c : Chunk} (h : NumberedFrom 1 d)
    (hc : c.lineNo = 1 + newlines (displayChunks d)) : NumberedFrom 1 (Document.pushChunkUnchecked d c) := by
  obtain ⟨l, v⟩ := c
  have happ : NumberedFrom 1 (d ++ [Chunk.mk l v]) := by
    rw [numberedFrom_append, numberedFrom_cons]
    exact ⟨h, hc, numberedFrom_nil _⟩
  simp only [Document.pushChunkUnchecked, Chunk.variant]
  split
  · split
    · next s l' ls hl =>
      rw [eq_dropLast_append hl, numberedFrom_append, numberedFrom_cons] at h
      rw [numberedFrom_append, numberedFrom_cons]
      exact ⟨h.1, h.2.1, numberedFrom_nil _⟩
    · exact happ
  · exact happ

theorem sanitised_append {a b : Str} (ha : Spec.Sanitised a) (hb : Spec.Sanitised b) :
    Spec.Sanitised (a ++ b) := by
  intro c hc
  rcases List.mem_append.1 hc with h | h
  · exact ha c h
  · exact hb c h

theorem Document.pushChunkUnchecked_allOk {d : Document} {c : Chunk} (h : AllChunks NodeOk d)
    (hc : c.All NodeOk) : AllChunks NodeOk (Document.pushChunkUnchecked d c) := by
  obtain ⟨l, v⟩ := c
  have happ : AllChunks NodeOk (d ++ [Chunk.mk l v]) := by
    simp [AllChunks, h, hc]
  simp only [Document.pushChunkUnchecked, Chunk.variant]
  split
  · split
    · next s l' ls hl =>
      rw [eq_dropLast_append hl] at h
      simp only [allChunks_append, AllChunks, Chunk.All, ChunkVariant.All, NodeOk, and_true] at h hc ⊢
      exact ⟨h.1, sanitised_append h.2 hc⟩
    · exact happ
  · exact happ

theorem Document.push_valid {d : Document} (v : ChunkVariant) (h : Valid d) :
    Valid (Document.push d v).2 := by
  simp only [Document.push]
  split
  · exact h
  · next hv =>
    rw [Valid, ← allChunks_iff] at *
    refine ⟨Document.pushChunkUnchecked_numbered h.1 ?_, Document.pushChunkUnchecked_allOk h.2 ?_⟩
    · simp [Chunk.lineNo, Document.nextLine_of_numbered h.1]
    · simpa [Chunk.All] using (ChunkVariant.validate_iff v).1 hv

theorem Document.pushChunk_valid {d : Document} (c : Chunk) (h : Valid d) :
    Valid (Document.pushChunk d c).2 := by
  simp only [Document.pushChunk]
  split
  · exact h
  · next hv =>
    split
    · exact h
    · next hl =>
      rw [Valid, ← allChunks_iff] at *
      refine ⟨Document.pushChunkUnchecked_numbered h.1 ?_, Document.pushChunkUnchecked_allOk h.2 ?_⟩
      · rw [← Document.nextLine_of_numbered h.1]; simp at hl; exact hl.symm
      · exact (Chunk.validate_iff c).1 hv

end Ast1

namespace Ast2

theorem Document.pushChunkUnchecked_display (d : Document) (c : Chunk) :
    displayChunks (Document.pushChunkUnchecked d c) = displayChunks d ++ c.display := by
  obtain ⟨l, v⟩ := c
  simp only [Document.pushChunkUnchecked, Chunk.variant]
  split
  · split
    · next s l' ls hl =>
      have h := eq_dropLast_append hl
      conv => rhs; rw [h]
      simp [displayChunks_cons, Chunk.display, ChunkVariant.display]
    · simp [displayChunks_cons]
  · simp [displayChunks_cons]

theorem Document.nextLine_of_numbered {d : Document} (h : NumberedFrom 1 d) :
    Document.nextLine d = 1 + newlines (displayChunks d) := by
  simp only [Document.nextLine]
  split
  · next last hl =>
    have he := eq_dropLast_append hl
    have h1 := h d.dropLast last [] he
    rw [h1, Chunk.lines_eq]
    conv => rhs; rw [he]
    simp [displayChunks_cons, newlines_eq_count]; omega
  · next hl =>
    have : d = [] := List.getLast?_eq_none_iff.1 hl
    simp [this]

theorem Document.pushChunkUnchecked_numbered {d : Document} {c : Chunk} (h : NumberedFrom 1 d)
    (hc : c.lineNo = 1 + newlines (displayChunks d)) : NumberedFrom 1 (Document.pushChunkUnchecked d c) := by
  obtain ⟨l, v⟩ := c
  have happ : NumberedFrom 1 (d ++ [Chunk.mk l v]) := by
    rw [numberedFrom_append, numberedFrom_cons]
    exact ⟨h, hc, numberedFrom_nil _⟩
  simp only [Document.pushChunkUnchecked, Chunk.variant]
  split
  · split
    · next s l' ls hl =>
      rw [eq_dropLast_append hl, numberedFrom_append, numberedFrom_cons] at h
      rw [numberedFrom_append, numberedFrom_cons]
      exact ⟨h.1, h.2.1, numberedFrom_nil _⟩
    · exact happ
  · exact happ

theorem sanitised_append {a b : Str} (ha : Spec.Sanitised a) (hb : Spec.Sanitised b) :
    Spec.Sanitised (a ++ b) := by
  intro c hc
  rcases List.mem_append.1 hc with h | h
  · exact ha c h
  · exact hb c h

theorem Document.pushChunkUnchecked_allOk {d : Document} {c : Chunk} (h : AllChunks NodeOk d)
    (hc : c.All NodeOk) : AllChunks NodeOk (Document.pushChunkUnchecked d c) := by
  obtain ⟨l, v⟩ := c
  have happ : AllChunks NodeOk (d ++ [Chunk.mk l v]) := by
    simp [AllChunks, h, hc]
  simp only [Document.pushChunkUnchecked, Chunk.variant]
  split
  · split
    · next s l' ls hl =>
      rw [eq_dropLast_append hl] at h
      simp only [allChunks_append, AllChunks, Chunk.All, ChunkVariant.All, NodeOk, and_true] at h hc ⊢
      exact ⟨h.1, sanitised_append h.2 hc⟩
    · exact happ
  · exact happ

theorem Document.push_valid {d : Document} (v : ChunkVariant) (h : Valid d) :
    Valid (Document.push d v).2 := by
  simp only [Document.push]
  split
  · exact h
  · next hv =>
    rw [Valid, ← allChunks_iff] at *
    refine ⟨Document.pushChunkUnchecked_numbered h.1 ?_, Document.pushChunkUnchecked_allOk h.2 ?_⟩
    · simp [Chunk.lineNo, Document.nextLine_of_numbered h.1]
    · simpa [Chunk.All] using (ChunkVariant.validate_iff v).1 hv

theorem Document.pushChunk_valid {d : Document} (c : Chunk) (h : Valid d) :
    Valid (Document.pushChunk d c).2 := by
  simp only [Document.pushChunk]
  split
  · exact h
  · next hv =>
    split
    · exact h
    · next hl =>
      rw [Valid, ← allChunks_iff] at *
      refine ⟨Document.pushChunkUnchecked_numbered h.1 ?_, Document.pushChunkUnchecked_allOk h.2 ?_⟩
      · rw [← Document.nextLine_of_numbered h.1]; simp at hl; exact hl.symm
      · exact (Chunk.validate_iff c).1 hv

end Ast2

namespace Ast3

theorem pushChunkVecUnchecked_display (d : List Chunk) (c : Chunk) :
    displayChunks (pushChunkVecUnchecked d c) = displayChunks d ++ c.display := by
  obtain ⟨l, v⟩ := c
  simp only [pushChunkVecUnchecked, Chunk.variant]
  split
  · split
    · next s l' ls hl =>
      have h := eq_dropLast_append hl
      conv => rhs; rw [h]
      simp [displayChunks_cons, Chunk.display, ChunkVariant.display]
    · simp [displayChunks_cons]
  · simp [displayChunks_cons]

theorem nextLine_of_numbered {d : List Chunk} (h : NumberedFrom 1 d) :
    nextLine d = 1 + newlines (displayChunks d) := by
  simp only [nextLine]
  split
  · next last hl =>
    have he := eq_dropLast_append hl
    have h1 := h d.dropLast last [] he
    rw [h1, Chunk.lines_eq]
    conv => rhs; rw [he]
    simp [displayChunks_cons, newlines_eq_count]; omega
  · next hl =>
    have : d = [] := List.getLast?_eq_none_iff.1 hl
    simp [this]

theorem pushChunkVecUnchecked_numbered {d : List Chunk} {c : Chunk} (h : NumberedFrom 1 d)
    (hc : c.lineNo = 1 + newlines (displayChunks d)) : NumberedFrom 1 (pushChunkVecUnchecked d c) := by
  obtain ⟨l, v⟩ := c
  have happ : NumberedFrom 1 (d ++ [Chunk.mk l v]) := by
    rw [numberedFrom_append, numberedFrom_cons]
    exact ⟨h, hc, numberedFrom_nil _⟩
  simp only [pushChunkVecUnchecked, Chunk.variant]
  split
  · split
    · next s l' ls hl =>
      rw [eq_dropLast_append hl, numberedFrom_append, numberedFrom_cons] at h
      rw [numberedFrom_append, numberedFrom_cons]
      exact ⟨h.1, h.2.1, numberedFrom_nil _⟩
    · exact happ
  · exact happ

/-- `NodeOk`, with merged texts allowed to contain a paragraph gap. -/
def NodeOkG : ChunkVariant → Prop
  | .text s => Spec.Sanitised s
  | v => NodeOk v

theorem NodeOk.g : ∀ {v : ChunkVariant}, NodeOk v → NodeOkG v
  | .text _, h => h.1
  | .paragraphBreak _, h => h
  | .mathsBlock _, h => h
  | .command _, h => h
  | .scope _, h => h
  | .environment _, h => h

theorem sanitised_append {a b : Str} (ha : Spec.Sanitised a) (hb : Spec.Sanitised b) :
    Spec.Sanitised (a ++ b) := by
  intro c hc
  rcases List.mem_append.1 hc with h | h
  · exact ha c h
  · exact hb c h

/-- Top-level texts are sanitised; everything else, at every depth, is `NodeOk`. -/
def Chunk.OkG : Chunk → Prop
  | .mk _ (.text s) => Spec.Sanitised s
  | c => c.All NodeOk

theorem Chunk.All.okG : ∀ {c : Chunk}, c.All NodeOk → c.OkG
  | .mk _ (.text s), h => h.1
  | .mk _ (.paragraphBreak _), h => h
  | .mk _ (.mathsBlock _), h => h
  | .mk _ (.command _), h => h
  | .mk _ (.scope _), h => h
  | .mk _ (.environment _), h => h

theorem pushChunkVecUnchecked_okG {d : List Chunk} {c : Chunk} (h : ∀ x ∈ d, x.OkG)
    (hc : c.OkG) : ∀ x ∈ pushChunkVecUnchecked d c, x.OkG := by
  obtain ⟨l, v⟩ := c
  have happ : ∀ x ∈ d ++ [Chunk.mk l v], x.OkG := by
    intro x hx
    rcases List.mem_append.1 hx with hx | hx
    · exact h x hx
    · simp at hx; rw [hx]; exact hc
  simp only [pushChunkVecUnchecked, Chunk.variant]
  split
  · split
    · next s l' ls hl =>
      have he := eq_dropLast_append hl
      intro x hx
      rcases List.mem_append.1 hx with hx | hx
      · exact h x (by rw [he]; simp [hx])
      · simp at hx
        subst hx
        exact sanitised_append (h (.mk l' (.text ls)) (by rw [he]; simp)) hc
    · exact happ
  · exact happ

theorem pushChunkVecUnchecked_allOk {d : List Chunk} {c : Chunk} (h : AllChunks NodeOk d)
    (hc : c.All NodeOk)
    (hm : ∀ l s l' s', d.getLast? = some (.mk l (.text s)) → c ≠ .mk l' (.text s')) :
    AllChunks NodeOk (pushChunkVecUnchecked d c) := by
  obtain ⟨l, v⟩ := c
  have happ : AllChunks NodeOk (d ++ [Chunk.mk l v]) := by
    simp [AllChunks, h, hc]
  simp only [pushChunkVecUnchecked, Chunk.variant]
  split
  · split
    · next hl => exact absurd rfl (hm _ _ _ _ hl)
    · exact happ
  · exact happ

end Ast3

end LatexAst
