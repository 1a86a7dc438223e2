import Verif.Spec.Size
import Verif.Proofs.Document3Facts
import Verif.Proofs.KeepsText
import Verif.Proofs.DocumentRule

/-! # The size of syntax trees: proofs for C74 -/

namespace LatexAst.Ast1

def NonEmptyText (v : ChunkVariant) : Prop := ∀ t, v = .text t → t ≠ []

mutual
theorem Chunk.nodes_le : ∀ c : Chunk, c.All NonEmptyText → c.nodes ≤ c.display.length
  | .mk l (.text t), h => by
    have : t ≠ [] := h t rfl
    have := List.length_pos_iff.2 this
    simp only [Chunk.nodes, Chunk.display, ChunkVariant.display]; omega
  | .mk l (.command (.mk label args)), h => by
    have := argNodes_le args h.2
    simp only [Chunk.nodes, Chunk.display, ChunkVariant.display, Command.display, List.length_cons, List.length_append]; omega
  | .mk l (.scope (.mk inner sv)), h => by
    have := nodes_le inner h.2
    simp only [Chunk.nodes, Chunk.display, ChunkVariant.display, Scope.display, List.length_cons, List.length_append]; omega
theorem nodes_le : ∀ cs : List Chunk, AllChunks NonEmptyText cs → nodes cs ≤ (displayChunks cs).length
  | [], _ => Nat.le_refl _
  | c :: cs, h => by
    have h1 := Chunk.nodes_le c h.1
    have h2 := nodes_le cs h.2
    simp only [nodes, displayChunks, List.length_append]; omega
theorem argNodes_le : ∀ a : List (Str × Scope), AllArgs NonEmptyText a → argNodes a ≤ (displayArgs a).length
  | [], _ => Nat.le_refl _
  | (p, .mk inner sv) :: r, h => by
    have h1 := nodes_le inner h.1
    have h2 := argNodes_le r h.2
    simp only [argNodes, displayArgs, Scope.display, List.length_append, List.length_cons]; omega
end

theorem nonEmpty_parsed {s d} (h : fromStr s = .ok d) : AllChunks NonEmptyText d :=
  Ast2.nodes_parsed1 h (by rintro l v hn t rfl; exact hn.1)

end LatexAst.Ast1

namespace LatexAst.Ast2

def NonEmptyText (v : ChunkVariant) : Prop := ∀ t, v = .text t → t ≠ []

mutual
theorem Chunk.nodes_le : ∀ c : Chunk, c.All NonEmptyText → c.nodes ≤ c.display.length
  | .mk l (.text t), h => by
    have : t ≠ [] := h t rfl
    have := List.length_pos_iff.2 this
    simp only [Chunk.nodes, Chunk.display, ChunkVariant.display]; omega
  | .mk l (.command (.mk label args)), h => by
    have := argNodes_le args h.2
    simp only [Chunk.nodes, Chunk.display, ChunkVariant.display, Command.display, List.length_cons, List.length_append]; omega
  | .mk l (.scope (.mk inner sv)), h => by
    have := nodes_le inner h.2
    simp only [Chunk.nodes, Chunk.display, ChunkVariant.display, Scope.display, List.length_cons, List.length_append]; omega
  | .mk l (.environment (.mk label args content pb pe)), h => by
    have h1 := argNodes_le args h.2.1
    have h2 := nodes_le content h.2.2
    simp only [Chunk.nodes, Chunk.display, ChunkVariant.display, Environment.display, List.length_cons, List.length_append]; omega
theorem nodes_le : ∀ cs : List Chunk, AllChunks NonEmptyText cs → nodes cs ≤ (displayChunks cs).length
  | [], _ => Nat.le_refl _
  | c :: cs, h => by
    have h1 := Chunk.nodes_le c h.1
    have h2 := nodes_le cs h.2
    simp only [nodes, displayChunks, List.length_append]; omega
theorem argNodes_le : ∀ a : List (Str × Scope), AllArgs NonEmptyText a → argNodes a ≤ (displayArgs a).length
  | [], _ => Nat.le_refl _
  | (p, .mk inner sv) :: r, h => by
    have h1 := nodes_le inner h.1
    have h2 := argNodes_le r h.2
    simp only [argNodes, displayArgs, Scope.display, List.length_append, List.length_cons]; omega
end

theorem nonEmpty_parsed {s d e} (h : Ast1.fromStr s = .ok d) (he : tryFrom d = .ok e) : AllChunks NonEmptyText e := by
  refine carry_tryFrom ⟨?_, ?_, ?_, ?_⟩ he (Ast1.nonEmpty_parsed h)
  · intro t h t' ht; cases ht; exact h t rfl
  · intro _ _ _ _ _ ht; cases ht
  · intro _ _ _ _ _ _ _ _ ht; cases ht
  · intro _ _ _ _ _ _ _ _ _ _ ht; cases ht

end LatexAst.Ast2

namespace LatexAst.Ast3

def NonEmptyText (v : ChunkVariant) : Prop := (∀ t, v = .text t → t ≠ []) ∧ ∀ t, v = .paragraphBreak t → t ≠ []

mutual
theorem Chunk.nodes_le : ∀ c : Chunk, c.All NonEmptyText → c.nodes ≤ c.display.length
  | .mk l (.text t), h => by
    have : t ≠ [] := h.1 t rfl
    have := List.length_pos_iff.2 this
    simp only [Chunk.nodes, Chunk.display, ChunkVariant.display]; omega
  | .mk l (.paragraphBreak t), h => by
    have : t ≠ [] := h.2 t rfl
    have := List.length_pos_iff.2 this
    simp only [Chunk.nodes, Chunk.display, ChunkVariant.display]; omega
  | .mk l (.mathsBlock (.mk mv mt content)), h => by
    have := nodes_le content h.2
    cases mv <;> cases mt <;>
      simp only [Chunk.nodes, Chunk.display, ChunkVariant.display, MathsBlock.display, delimiters, List.length_cons,
        List.length_append, List.length_nil] <;> omega
  | .mk l (.command (.mk label args)), h => by
    have := argNodes_le args h.2
    simp only [Chunk.nodes, Chunk.display, ChunkVariant.display, Command.display, List.length_cons, List.length_append]; omega
  | .mk l (.scope (.mk inner sv)), h => by
    have := nodes_le inner h.2
    simp only [Chunk.nodes, Chunk.display, ChunkVariant.display, Scope.display, List.length_cons, List.length_append]; omega
  | .mk l (.environment (.mk label args content pb pe)), h => by
    have h1 := argNodes_le args h.2.1
    have h2 := nodes_le content h.2.2
    simp only [Chunk.nodes, Chunk.display, ChunkVariant.display, Environment.display, List.length_cons, List.length_append]; omega
theorem nodes_le : ∀ cs : List Chunk, AllChunks NonEmptyText cs → nodes cs ≤ (displayChunks cs).length
  | [], _ => Nat.le_refl _
  | c :: cs, h => by
    have h1 := Chunk.nodes_le c h.1
    have h2 := nodes_le cs h.2
    simp only [nodes, displayChunks, List.length_append]; omega
theorem argNodes_le : ∀ a : List (Str × Scope), AllArgs NonEmptyText a → argNodes a ≤ (displayArgs a).length
  | [], _ => Nat.le_refl _
  | (p, .mk inner sv) :: r, h => by
    have h1 := nodes_le inner h.1
    have h2 := argNodes_le r h.2
    simp only [argNodes, displayArgs, Scope.display, List.length_append, List.length_cons]; omega
end

abbrev len2 (cs : List Ast2.Chunk) : Nat := (Ast2.displayChunks cs).length

theorem len2_cons (c cs) : len2 (c :: cs) = c.display.length + len2 cs := by
  simp [len2, Ast2.displayChunks_cons]
theorem len2_append (a b) : len2 (a ++ b) = len2 a + len2 b := by
  simp [len2, Ast2.displayChunks_append]

theorem len2_filter (p : Ast2.Chunk → Bool) (cs : List Ast2.Chunk) :
    len2 (cs.filter p) + len2 (cs.filter fun c => !p c) = len2 cs := by
  induction cs with
  | nil => rfl
  | cons c cs ih =>
    cases h : p c
    · rw [List.filter_cons_of_neg (by simp [h]), List.filter_cons_of_pos (by simp [h]), len2_cons, len2_cons]; omega
    · rw [List.filter_cons_of_pos (by simp [h]), List.filter_cons_of_neg (by simp [h]), len2_cons, len2_cons]; omega

theorem bodiesOf_drop (e : List Ast2.Chunk) : bodiesOf e = (e.dropWhile fun c => !isBody c).filter isBody := by
  unfold bodiesOf
  induction e with
  | nil => rfl
  | cons c cs ih =>
    cases h : isBody c
    · rw [List.filter_cons_of_neg (by simp [h]), List.dropWhile_cons_of_pos (by simp [h]), ih]
    · rw [List.dropWhile_cons_of_neg (by simp [h])]

theorem sections_length (e : List Ast2.Chunk) :
    len2 (preambleOf e) + len2 (bodiesOf e) + len2 (trailingOf e) = len2 e := by
  have h1 := len2_filter isBody (e.dropWhile fun c => !isBody c)
  have h2 := len2_append (preambleOf e) (e.dropWhile fun c => !isBody c)
  rw [preambleOf, List.takeWhile_append_dropWhile] at h2
  rw [bodiesOf_drop, trailingOf, preambleOf]
  omega

theorem becomes_le {cs out} (h : Becomes cs (.ok out)) : (displayChunks out).length ≤ len2 cs :=
  mathsFromChunks_le (yields_iff.2 h)

theorem body_le {e env} (h : Body e env) : match env with
    | .mk _ args content _ _ => (displayArgs args).length + (displayChunks content).length ≤ len2 (bodiesOf e) := by
  cases h with
  | none => simp [displayArgs, displayChunks]
  | @last a c l _ h1 h2 =>
    obtain ⟨label, args, content, pb, pe⟩ := env
    have := becomes_le h2
    rw [h1, len2_append]
    simp only [displayChunks, Chunk.display, ChunkVariant.display, Environment.display, List.length_append, List.length_cons] at this
    simp only
    omega

theorem readsOptions_length {s os} (h : ReadsOptions s os) : os.length ≤ s.length + 1 := by
  induction h with
  | last => simp
  | more _ _ _ ih => simp; omega

theorem readsLists_length {ls os} (h : ReadsLists ls os) : os.length ≤ (ls.map fun s => s.length + 1).sum := by
  induction h with
  | nil => simp
  | cons h1 _ ih =>
    have := readsOptions_length h1
    simp; omega

theorem optionLists_length (args : List (Str × Ast2.Scope)) :
    ((optionLists args).map fun s => s.length + 1).sum ≤ (Ast2.displayArgs args).length := by
  induction args with
  | nil => simp [optionLists]
  | cons x r ih =>
    obtain ⟨p, ⟨cs, v⟩⟩ := x
    cases v <;> simp [optionLists, Ast2.displayArgs, Ast2.Scope.display] <;> omega

theorem displayArgs2_append (a b : List (Str × Ast2.Scope)) :
    Ast2.displayArgs (a ++ b) = Ast2.displayArgs a ++ Ast2.displayArgs b := by
  induction a with
  | nil => rfl
  | cons x r ih => obtain ⟨p, sc⟩ := x; simp [Ast2.displayArgs, ih]

theorem classArgs_length (cs : List Ast2.Chunk) : (Ast2.displayArgs (classArgs cs)).length ≤ len2 cs := by
  induction cs with
  | nil => simp [classArgs, Ast2.displayArgs]
  | cons c cs ih =>
    rw [len2_cons]
    obtain ⟨l, v⟩ := c
    cases v with
    | command cm =>
      obtain ⟨label, args⟩ := cm
      simp only [classArgs]
      split
      · rw [displayArgs2_append]
        simp [Ast2.Chunk.display, Ast2.ChunkVariant.display, Ast2.Command.display]
        omega
      · omega
    | text t => simp only [classArgs]; omega
    | scope t => simp only [classArgs]; omega
    | environment t => simp only [classArgs]; omega

end LatexAst.Ast3
