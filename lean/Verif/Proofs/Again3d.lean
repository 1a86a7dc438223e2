import Verif.Proofs.Again3c
import Verif.Proofs.Load3g

/-! When going from stage 3 to stage 2 and back changes nothing. -/

namespace LatexAst.Ast3
open Spec

theorem everyDollars_nil : EveryDollars Q [] := by
  intro k content h
  cases h with
  | here hm | scope hm | arg hm | envArg hm | envContent hm | maths hm => cases hm

theorem everyDollars_append {a b} : EveryDollars Q (a ++ b) ↔ EveryDollars Q a ∧ EveryDollars Q b := by
  constructor
  · intro h; exact ⟨fun k c hw => h k c (within_append.2 (.inl hw)), fun k c hw => h k c (within_append.2 (.inr hw))⟩
  · rintro ⟨h1, h2⟩ k c hw
    rcases within_append.1 hw with hw | hw
    · exact h1 k c hw
    · exact h2 k c hw

theorem everyDollars_cons {c cs} : EveryDollars Q (c :: cs) ↔ EveryDollars Q [c] ∧ EveryDollars Q cs := everyDollars_append (a := [c])

theorem everyDollars_text {cs : List Chunk} (h : ∀ v ∈ cs.map Chunk.variant, (∃ t, v = .text t) ∨ ∃ t, v = .paragraphBreak t) : EveryDollars Q cs := by
  have key : ∀ {l v}, Chunk.mk l v ∈ cs → (∃ t, v = .text t) ∨ ∃ t, v = .paragraphBreak t := fun {l v} hm => h v (List.mem_map.2 ⟨_, hm, rfl⟩)
  intro k content hw
  cases hw with
  | here hm => rcases key hm with ⟨_, h⟩ | ⟨_, h⟩ <;> cases h
  | scope hm => rcases key hm with ⟨_, h⟩ | ⟨_, h⟩ <;> cases h
  | arg hm => rcases key hm with ⟨_, h⟩ | ⟨_, h⟩ <;> cases h
  | envArg hm => rcases key hm with ⟨_, h⟩ | ⟨_, h⟩ <;> cases h
  | envContent hm => rcases key hm with ⟨_, h⟩ | ⟨_, h⟩ <;> cases h
  | maths hm => rcases key hm with ⟨_, h⟩ | ⟨_, h⟩ <;> cases h

theorem everyDollars_command {l label args cs} : EveryDollars Q (.mk l (.command (.mk label args)) :: cs) ↔ (∀ x ∈ args, EveryDollars Q x.2.chunks) ∧ EveryDollars Q cs := by
  rw [everyDollars_cons]
  refine and_congr ⟨fun h => ?_, fun h k content hw => ?_⟩ Iff.rfl
  · rintro ⟨p, ⟨inner, sv⟩⟩ hx k content hw
    exact h k content (.arg (.head _) hx hw)
  · cases hw with
    | here hm => simp at hm
    | scope hm => simp at hm
    | arg hm h1 h2 => simp at hm; obtain ⟨_, _, rfl⟩ := hm; exact h _ h1 k content h2
    | envArg hm => simp at hm
    | envContent hm => simp at hm
    | maths hm => simp at hm

theorem everyDollars_scope {l inner sv cs} : EveryDollars Q (.mk l (.scope (.mk inner sv)) :: cs) ↔ EveryDollars Q inner ∧ EveryDollars Q cs := by
  rw [everyDollars_cons]
  refine and_congr ⟨fun h => ?_, fun h k content hw => ?_⟩ Iff.rfl
  · intro k content hw
    exact h k content (.scope (.head _) hw)
  · cases hw with
    | here hm => simp at hm
    | scope hm h2 => simp at hm; obtain ⟨_, rfl, _⟩ := hm; exact h k content h2
    | arg hm => simp at hm
    | envArg hm => simp at hm
    | envContent hm => simp at hm
    | maths hm => simp at hm

theorem everyDollars_environment {l label args body pb pe cs} : EveryDollars Q (.mk l (.environment (.mk label args body pb pe)) :: cs) ↔
    (∀ x ∈ args, EveryDollars Q x.2.chunks) ∧ EveryDollars Q body ∧ EveryDollars Q cs := by
  rw [everyDollars_cons, ← and_assoc]
  refine and_congr ⟨fun h => ⟨?_, ?_⟩, fun h k content hw => ?_⟩ Iff.rfl
  · rintro ⟨p, ⟨inner, sv⟩⟩ hx k content hw
    exact h k content (.envArg (.head _) hx hw)
  · intro k content hw
    exact h k content (.envContent (.head _) hw)
  · cases hw with
    | here hm => simp at hm
    | scope hm => simp at hm
    | arg hm => simp at hm
    | envArg hm h1 h2 => simp at hm; obtain ⟨_, _, rfl, _⟩ := hm; exact h.1 _ h1 k content h2
    | envContent hm h2 => simp at hm; obtain ⟨_, _, _, rfl, _⟩ := hm; exact h.2 k content h2
    | maths hm => simp at hm

theorem everyDollars_maths {l v k body cs} : EveryDollars Q (.mk l (.mathsBlock (.mk v k body)) :: cs) ↔
    ((v = .dollars → Q body) ∧ EveryDollars Q body) ∧ EveryDollars Q cs := by
  rw [everyDollars_cons]
  refine and_congr ⟨fun h => ⟨?_, ?_⟩, fun h k content hw => ?_⟩ Iff.rfl
  · rintro rfl
    exact h _ _ (.here (.head _))
  · intro k content hw
    exact h k content (.maths (.head _) hw)
  · cases hw with
    | here hm => simp at hm; obtain ⟨_, h1, _, rfl⟩ := hm; exact h.1 h1.symm
    | scope hm => simp at hm
    | arg hm => simp at hm
    | envArg hm => simp at hm
    | envContent hm => simp at hm
    | maths hm h2 => simp at hm; obtain ⟨_, _, _, rfl⟩ := hm; exact h.2 k content h2

theorem noLines_length (a : List Chunk) : (noLines a).length = a.length := by
  induction a with
  | nil => rfl
  | cons c a ih => obtain ⟨l, v⟩ := c; simp [noLines, ih]

theorem piece_textLike {c} (h : IsPiece c) : TextLike c.variant := by
  cases h with
  | text => exact .inl ⟨_, rfl⟩
  | «break» => exact .inr ⟨_, rfl⟩

theorem everyDollars_pieces {Q} {cs : List Chunk} (h : ∀ c ∈ cs, IsPiece c) : EveryDollars Q cs := by
  refine everyDollars_text fun v hv => ?_
  obtain ⟨c, hc, rfl⟩ := List.mem_map.1 hv
  exact piece_textLike (h c hc)

theorem textless_not_text {ms} (h : Textless ms) : ∀ c ∈ ms, ¬ c.IsText := by
  have key : ∀ {l v} {rest : List Chunk}, (¬ Chunk.IsText (.mk l v)) → (∀ c ∈ rest, ¬ c.IsText) → ∀ c ∈ Chunk.mk l v :: rest, ¬ c.IsText := by
    intro l v rest h1 h2 c hc
    rcases List.mem_cons.1 hc with rfl | hc
    · exact h1
    · exact h2 c hc
  induction h with
  | nil => simp
  | command _ ih => exact key (by rintro (⟨t, h⟩ | ⟨t, h⟩) <;> cases h) ih
  | scope _ ih => exact key (by rintro (⟨t, h⟩ | ⟨t, h⟩) <;> cases h) ih
  | environment _ ih => exact key (by rintro (⟨t, h⟩ | ⟨t, h⟩) <;> cases h) ih
  | brackets _ _ _ ih => exact key (by rintro (⟨t, h⟩ | ⟨t, h⟩) <;> cases h) ih

theorem textOnlyLast_plain {ms} (h : Textless ms) : TextOnlyLast ms := by
  intro a c b he hc
  exact absurd hc (textless_not_text h c (by simp [he]))

theorem textOnlyLast_iff {ms left : List Chunk} {last : Chunk} (h : Textless ms) (hl : ∀ c ∈ left, IsPiece c) :
    TextOnlyLast (ms ++ left ++ [last]) ↔ left = [] := by
  constructor
  · intro ho
    cases left with
    | nil => rfl
    | cons c left =>
      have := ho ms c (left ++ [last]) (by simp) (piece_textLike (hl c (.head _)))
      simp at this
  · rintro rfl a c b he hc
    rw [List.append_nil] at he
    rcases List.eq_nil_or_concat b with rfl | ⟨b', d, rfl⟩
    · rfl
    · exfalso
      have h' : ms ++ [last] = (a ++ c :: b') ++ [d] := by simpa using he
      obtain ⟨h1, h2⟩ := List.append_inj' h' rfl
      exact textless_not_text h c (by simp [h1]) hc

theorem refilled_same {items : List ((Str × Scope) × List Chunk)} :
    noLinesArgs (refilled items) = noLinesArgs (items.map (·.1)) ↔ ∀ x ∈ items, noLines x.2 = noLines x.1.2.chunks := by
  induction items with
  | nil => simp [refilled]
  | cons x items ih =>
    obtain ⟨⟨p, ⟨inner, sv⟩⟩, cs⟩ := x
    simp only [refilled, List.map_cons, noLinesArgs, Scope.noLines, Scope.variant, List.cons.injEq, Prod.mk.injEq, Scope.mk.injEq, and_true, true_and,
      ih, List.forall_mem_cons, Scope.chunks]

/-- Nothing becomes less, and nothing changes exactly if every formula in dollar signs has at most one piece of text. -/
theorem Resettles.same {cs out'} (h : Resettles cs out') : cs.length ≤ out'.length ∧ (noLines out' = noLines cs ↔ OnePiece cs) := by
  unfold OnePiece
  induction h with
  | nil => exact ⟨Nat.le_refl _, fun _ => everyDollars_nil, fun _ => rfl⟩
  | @piece c rest rest' hp _ ih =>
    refine ⟨by simp [ih.1], ?_⟩
    obtain ⟨l, v⟩ := c
    rw [everyDollars_cons, ← ih.2]
    simp only [noLines, List.cons.injEq, true_and]
    exact ⟨fun h => ⟨everyDollars_pieces (by simpa using hp), h⟩, fun h => h.2⟩
  | @command l label rest rest' items _ _ _ ih1 ih2 =>
    refine ⟨by simp [ih2.1], ?_⟩
    rw [everyDollars_command, ← ih2.2]
    simp only [noLines, List.cons.injEq, Chunk.mk.injEq, true_and, ChunkVariant.noLines, Command.noLines, ChunkVariant.command.injEq, Command.mk.injEq,
      refilled_same]
    refine and_congr ⟨fun h x hx => ?_, fun h x hx => ?_⟩ Iff.rfl
    · obtain ⟨y, hy, rfl⟩ := List.mem_map.1 hx
      exact (ih1 y hy).2.1 (h y hy)
    · exact (ih1 x hx).2.2 (h x.1 (List.mem_map.2 ⟨x, hx, rfl⟩))
  | scope _ _ ih1 ih2 =>
    refine ⟨by simp [ih2.1], ?_⟩
    rw [everyDollars_scope, ← ih1.2, ← ih2.2]
    simp [noLines, ChunkVariant.noLines, Scope.noLines]
  | @environment l label content content' pb pe rest rest' items _ _ _ ih1 ih3 ih2 =>
    refine ⟨by simp [ih2.1], ?_⟩
    rw [everyDollars_environment, ← ih3.2, ← ih2.2]
    simp only [noLines, List.cons.injEq, Chunk.mk.injEq, true_and, and_true, ChunkVariant.noLines, Environment.noLines, ChunkVariant.environment.injEq,
      Environment.mk.injEq, refilled_same, and_assoc]
    refine and_congr ⟨fun h x hx => ?_, fun h x hx => ?_⟩ Iff.rfl
    · obtain ⟨y, hy, rfl⟩ := List.mem_map.1 hx
      exact (ih1 y hy).2.1 (h y hy)
    · exact (ih1 x hx).2.2 (h x.1 (List.mem_map.2 ⟨x, hx, rfl⟩))
  | brackets _ _ _ ih1 ih2 =>
    refine ⟨by simp [ih2.1], ?_⟩
    rw [everyDollars_maths, ← ih1.2, ← ih2.2]
    simp [noLines, ChunkVariant.noLines, MathsBlock.noLines]
  | plain _ ht _ _ ih1 ih2 =>
    refine ⟨by simp [ih2.1], ?_⟩
    rw [everyDollars_maths, ← ih1.2, ← ih2.2]
    simp [noLines, ChunkVariant.noLines, MathsBlock.noLines, textOnlyLast_plain ht]
  | @dollars l k ms ms' left last rest rest' ht _ hp hq _ ih1 ih2 =>
    refine ⟨by simp; omega, ?_⟩
    rw [everyDollars_maths, textOnlyLast_iff ht hp, List.append_assoc, everyDollars_append, ← ih1.2, ← ih2.2]
    constructor
    · intro h
      have hlen := congrArg List.length h
      simp only [noLines_length, List.length_append, List.length_cons] at hlen
      have : left = [] := List.length_eq_zero_iff.1 (by omega)
      subst this
      simp only [List.nil_append, noLines, List.cons.injEq, Chunk.mk.injEq, true_and, ChunkVariant.noLines, MathsBlock.noLines,
        ChunkVariant.mathsBlock.injEq, MathsBlock.mk.injEq, noLines_append] at h
      exact ⟨⟨fun _ => rfl, (List.append_inj' h.1 rfl).1, everyDollars_pieces (by simpa using hq)⟩, h.2⟩
    · rintro ⟨⟨h1, h2, _⟩, h3⟩
      have := h1 rfl
      subst this
      simp [noLines, ChunkVariant.noLines, MathsBlock.noLines, noLines_append, h2, h3]

end LatexAst.Ast3
