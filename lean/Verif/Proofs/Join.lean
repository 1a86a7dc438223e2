import Verif.Spec.BackRule
import Verif.Proofs.Back2

/-! Pushing chunks one by one puts adjacent texts together. -/

namespace LatexAst.Ast1

theorem joinTexts_text_text (l l' : Nat) (t t' : Str) (r : List Chunk) :
    joinTexts (.mk l (.text t) :: .mk l' (.text t') :: r) = joinTexts (.mk l (.text (t ++ t')) :: r) := by
  simp only [joinTexts]
  generalize joinTexts r = x
  cases x with
  | nil => rfl
  | cons c x =>
    obtain ⟨n, v⟩ := c
    cases v <;> simp

theorem joinTexts_other (c : Chunk) (r : List Chunk) (h : ∀ l t, c ≠ .mk l (.text t)) : joinTexts (c :: r) = c :: joinTexts r := by
  obtain ⟨l, v⟩ := c
  cases v with
  | text t => exact absurd rfl (h l t)
  | scope s => rfl
  | command c => rfl

theorem joinTexts_text_other (l : Nat) (t : Str) (c : Chunk) (r : List Chunk) (h : ∀ l t, c ≠ .mk l (.text t)) :
    joinTexts (.mk l (.text t) :: c :: r) = .mk l (.text t) :: joinTexts (c :: r) := by
  rw [joinTexts, joinTexts_other c r h]
  split
  · rename_i heq
    cases heq
    exact absurd rfl (h _ _)
  · rfl

theorem foldl_push_join (xs : List Chunk) : (∀ a l t, xs.foldl Document.pushChunkUnchecked (a ++ [.mk l (.text t)]) = a ++ joinTexts (.mk l (.text t) :: xs)) ∧
    (∀ a : List Chunk, (∀ l t, a.getLast? ≠ some (.mk l (.text t))) → xs.foldl Document.pushChunkUnchecked a = a ++ joinTexts xs) := by
  induction xs with
  | nil => exact ⟨fun a l t => rfl, fun a _ => by simp [joinTexts]⟩
  | cons c xs ih =>
    by_cases hc : ∃ l t, c = .mk l (.text t)
    · obtain ⟨l', t', rfl⟩ := hc
      constructor
      · intro a l t
        rw [joinTexts_text_text, List.foldl_cons, ← ih.1]
        simp [Document.pushChunkUnchecked, Chunk.variant]
      · intro a ha
        have : Document.pushChunkUnchecked a (.mk l' (.text t')) = a ++ [.mk l' (.text t')] := by
          simp only [Document.pushChunkUnchecked, Chunk.variant]
        rw [List.foldl_cons, this, ih.1]
    · have hc : ∀ l t, c ≠ .mk l (.text t) := fun l t h => hc ⟨l, t, h⟩
      have hp : ∀ a, Document.pushChunkUnchecked a c = a ++ [c] := by
        intro a
        obtain ⟨l, v⟩ := c
        cases v with
        | text t => exact absurd rfl (hc l t)
        | scope s => rfl
        | command c => rfl
      have hl : ∀ a : List Chunk, ∀ l t, (a ++ [c]).getLast? ≠ some (.mk l (.text t)) := by
        intro a l t h
        simp at h
        exact hc l t h
      constructor
      · intro a l t
        rw [joinTexts_text_other l t c xs hc, List.foldl_cons, hp, ih.2 _ (hl _), joinTexts_other c xs hc]
        simp
      · intro a _
        rw [List.foldl_cons, hp, ih.2 _ (hl _), joinTexts_other c xs hc]
        simp

end LatexAst.Ast1

namespace LatexAst.Ast2

theorem joinTexts_text_text (l l' : Nat) (t t' : Str) (r : List Chunk) :
    joinTexts (.mk l (.text t) :: .mk l' (.text t') :: r) = joinTexts (.mk l (.text (t ++ t')) :: r) := by
  simp only [joinTexts]
  generalize joinTexts r = x
  cases x with
  | nil => rfl
  | cons c x =>
    obtain ⟨n, v⟩ := c
    cases v <;> simp

theorem joinTexts_other (c : Chunk) (r : List Chunk) (h : ∀ l t, c ≠ .mk l (.text t)) : joinTexts (c :: r) = c :: joinTexts r := by
  obtain ⟨l, v⟩ := c
  cases v with
  | text t => exact absurd rfl (h l t)
  | scope s => rfl
  | command c => rfl
  | environment c => rfl

theorem joinTexts_text_other (l : Nat) (t : Str) (c : Chunk) (r : List Chunk) (h : ∀ l t, c ≠ .mk l (.text t)) :
    joinTexts (.mk l (.text t) :: c :: r) = .mk l (.text t) :: joinTexts (c :: r) := by
  rw [joinTexts, joinTexts_other c r h]
  split
  · rename_i heq
    cases heq
    exact absurd rfl (h _ _)
  · rfl

theorem foldl_push_join (xs : List Chunk) : (∀ a l t, xs.foldl Document.pushChunkUnchecked (a ++ [.mk l (.text t)]) = a ++ joinTexts (.mk l (.text t) :: xs)) ∧
    (∀ a : List Chunk, (∀ l t, a.getLast? ≠ some (.mk l (.text t))) → xs.foldl Document.pushChunkUnchecked a = a ++ joinTexts xs) := by
  induction xs with
  | nil => exact ⟨fun a l t => rfl, fun a _ => by simp [joinTexts]⟩
  | cons c xs ih =>
    by_cases hc : ∃ l t, c = .mk l (.text t)
    · obtain ⟨l', t', rfl⟩ := hc
      constructor
      · intro a l t
        rw [joinTexts_text_text, List.foldl_cons, ← ih.1]
        simp [Document.pushChunkUnchecked, Chunk.variant]
      · intro a ha
        have : Document.pushChunkUnchecked a (.mk l' (.text t')) = a ++ [.mk l' (.text t')] := by
          simp only [Document.pushChunkUnchecked, Chunk.variant]
        rw [List.foldl_cons, this, ih.1]
    · have hc : ∀ l t, c ≠ .mk l (.text t) := fun l t h => hc ⟨l, t, h⟩
      have hp : ∀ a, Document.pushChunkUnchecked a c = a ++ [c] := by
        intro a
        obtain ⟨l, v⟩ := c
        cases v with
        | text t => exact absurd rfl (hc l t)
        | scope s => rfl
        | command c => rfl
        | environment c => rfl
      have hl : ∀ a : List Chunk, ∀ l t, (a ++ [c]).getLast? ≠ some (.mk l (.text t)) := by
        intro a l t h
        simp at h
        exact hc l t h
      constructor
      · intro a l t
        rw [joinTexts_text_other l t c xs hc, List.foldl_cons, hp, ih.2 _ (hl _), joinTexts_other c xs hc]
        simp
      · intro a _
        rw [List.foldl_cons, hp, ih.2 _ (hl _), joinTexts_other c xs hc]
        simp

end LatexAst.Ast2
