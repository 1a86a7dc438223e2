import Verif.Spec.Edit
import Verif.Proofs.Valid
import Verif.Proofs.Lines

/-! Replacing a node. -/

namespace LatexAst

namespace Ast1
open Spec

theorem allArgs_append {P} (a b : List (Str × Scope)) : AllArgs P (a ++ b) ↔ AllArgs P a ∧ AllArgs P b := by
  simp only [allArgs_iff_forall, List.mem_append]
  constructor
  · exact fun h => ⟨fun c hc => h c (.inl hc), fun c hc => h c (.inr hc)⟩
  · rintro ⟨h, h'⟩ c (hc | hc)
    · exact h c hc
    · exact h' c hc

theorem Edit.display {v v' w w'} (h : Edit v v' w w') : ∃ a b, w.display = a ++ (v.display ++ b) ∧ w'.display = a ++ (v'.display ++ b) := by
  induction h with
  | here => exact ⟨[], [], by simp, by simp⟩
  | @scope pre l w w' post sv _ ih =>
    obtain ⟨a, b, ha, hb⟩ := ih
    exact ⟨[sv.opening] ++ displayChunks pre ++ a, b ++ displayChunks post ++ [sv.closing], by simp [ChunkVariant.display, Scope.display, Command.display, Chunk.display, displayChunks, displayArgs, ha, hb], by simp [ChunkVariant.display, Scope.display, Command.display, Chunk.display, displayChunks, displayArgs, ha, hb]⟩
  | @arg label apre p pre l w w' post sv apost _ ih =>
    obtain ⟨a, b, ha, hb⟩ := ih
    exact ⟨'\\' :: (label ++ displayArgs apre ++ p ++ [sv.opening] ++ displayChunks pre ++ a), b ++ displayChunks post ++ [sv.closing] ++ displayArgs apost, by simp [ChunkVariant.display, Scope.display, Command.display, Chunk.display, displayChunks, displayArgs, ha, hb], by simp [ChunkVariant.display, Scope.display, Command.display, Chunk.display, displayChunks, displayArgs, ha, hb]⟩

theorem Edit.all {v v' w w'} (h : Edit v v' w w') (hw : w.All NodeOk) : w'.All NodeOk ↔ v'.All NodeOk := by
  induction h with
  | here => exact Iff.rfl
  | @scope pre l w w' post sv _ ih =>
    simp only [ChunkVariant.All, Scope.All, Command.All, Chunk.All, AllChunks, AllArgs, allArgs_append, allChunks_append, NodeOk] at hw ⊢
    grind
  | @arg label apre p pre l w w' post sv apost _ ih =>
    simp only [ChunkVariant.All, Scope.All, Command.All, Chunk.All, AllChunks, AllArgs, allArgs_append, allChunks_append, NodeOk] at hw ⊢
    grind

theorem Edit.numbered {v v' w w'} (h : Edit v v' w w') {n pre l post} (hn : NumberedFrom n (pre ++ .mk l w :: post)) :
    NumberedFrom n (pre ++ .mk l w' :: post) ↔ post = [] ∨ v'.display.count '\n' = v.display.count '\n' := by
  obtain ⟨a, b, ha, hb⟩ := h.display
  rw [numberedFrom_append, numberedFrom_cons] at hn ⊢
  obtain ⟨h1, h2, h3⟩ := hn
  have hl : (Chunk.mk l w').lineNo = n + newlines (displayChunks pre) := h2
  simp only [h1, hl, true_and, Chunk.lines_eq, Chunk.display, ha, hb, newlines_eq_count, List.count_append, Nat.add_sub_cancel] at h3 ⊢
  cases post with
  | nil => simp [numberedFrom_nil]
  | cons c post =>
    rw [numberedFrom_cons] at h3 ⊢
    constructor
    · intro h4; right; have := h3.1; have := h4.1; omega
    · rintro (h4 | h4)
      · cases h4
      · rw [h4]; exact h3
end Ast1

namespace Ast2
open Spec

theorem allArgs_append {P} (a b : List (Str × Scope)) : AllArgs P (a ++ b) ↔ AllArgs P a ∧ AllArgs P b := by
  simp only [allArgs_iff_forall, List.mem_append]
  constructor
  · exact fun h => ⟨fun c hc => h c (.inl hc), fun c hc => h c (.inr hc)⟩
  · rintro ⟨h, h'⟩ c (hc | hc)
    · exact h c hc
    · exact h' c hc

theorem Edit.display {v v' w w'} (h : Edit v v' w w') : ∃ a b, w.display = a ++ (v.display ++ b) ∧ w'.display = a ++ (v'.display ++ b) := by
  induction h with
  | here => exact ⟨[], [], by simp, by simp⟩
  | @scope pre l w w' post sv _ ih =>
    obtain ⟨a, b, ha, hb⟩ := ih
    exact ⟨[sv.opening] ++ displayChunks pre ++ a, b ++ displayChunks post ++ [sv.closing], by simp [ChunkVariant.display, Scope.display, Command.display, Environment.display, Chunk.display, displayChunks, displayArgs, ha, hb], by simp [ChunkVariant.display, Scope.display, Command.display, Environment.display, Chunk.display, displayChunks, displayArgs, ha, hb]⟩
  | @arg label apre p pre l w w' post sv apost _ ih =>
    obtain ⟨a, b, ha, hb⟩ := ih
    exact ⟨'\\' :: (label ++ displayArgs apre ++ p ++ [sv.opening] ++ displayChunks pre ++ a), b ++ displayChunks post ++ [sv.closing] ++ displayArgs apost, by simp [ChunkVariant.display, Scope.display, Command.display, Environment.display, Chunk.display, displayChunks, displayArgs, ha, hb], by simp [ChunkVariant.display, Scope.display, Command.display, Environment.display, Chunk.display, displayChunks, displayArgs, ha, hb]⟩
  | @envArg label apre p pre l w w' post sv apost content pb pe _ ih =>
    obtain ⟨a, b, ha, hb⟩ := ih
    exact ⟨chars!"\\begin" ++ pb ++ '{' :: (label ++ '}' :: (displayArgs apre ++ p ++ [sv.opening] ++ displayChunks pre ++ a)), b ++ displayChunks post ++ [sv.closing] ++ displayArgs apost ++ displayChunks content ++ chars!"\\end" ++ pe ++ '{' :: (label ++ ['}']), by simp [ChunkVariant.display, Scope.display, Command.display, Environment.display, Chunk.display, displayChunks, displayArgs, ha, hb], by simp [ChunkVariant.display, Scope.display, Command.display, Environment.display, Chunk.display, displayChunks, displayArgs, ha, hb]⟩
  | @envContent label args pre l w w' post pb pe _ ih =>
    obtain ⟨a, b, ha, hb⟩ := ih
    exact ⟨chars!"\\begin" ++ pb ++ '{' :: (label ++ '}' :: (displayArgs args ++ displayChunks pre ++ a)), b ++ displayChunks post ++ chars!"\\end" ++ pe ++ '{' :: (label ++ ['}']), by simp [ChunkVariant.display, Scope.display, Command.display, Environment.display, Chunk.display, displayChunks, displayArgs, ha, hb], by simp [ChunkVariant.display, Scope.display, Command.display, Environment.display, Chunk.display, displayChunks, displayArgs, ha, hb]⟩

theorem Edit.all {v v' w w'} (h : Edit v v' w w') (hw : w.All NodeOk) : w'.All NodeOk ↔ v'.All NodeOk := by
  induction h with
  | here => exact Iff.rfl
  | @scope pre l w w' post sv _ ih =>
    simp only [ChunkVariant.All, Scope.All, Command.All, Environment.All, Chunk.All, AllChunks, AllArgs, allArgs_append, allChunks_append, NodeOk] at hw ⊢
    grind
  | @arg label apre p pre l w w' post sv apost _ ih =>
    simp only [ChunkVariant.All, Scope.All, Command.All, Environment.All, Chunk.All, AllChunks, AllArgs, allArgs_append, allChunks_append, NodeOk] at hw ⊢
    grind
  | @envArg label apre p pre l w w' post sv apost content pb pe _ ih =>
    simp only [ChunkVariant.All, Scope.All, Command.All, Environment.All, Chunk.All, AllChunks, AllArgs, allArgs_append, allChunks_append, NodeOk] at hw ⊢
    grind
  | @envContent label args pre l w w' post pb pe _ ih =>
    simp only [ChunkVariant.All, Scope.All, Command.All, Environment.All, Chunk.All, AllChunks, AllArgs, allArgs_append, allChunks_append, NodeOk] at hw ⊢
    grind

theorem Edit.numbered {v v' w w'} (h : Edit v v' w w') {n pre l post} (hn : NumberedFrom n (pre ++ .mk l w :: post)) :
    NumberedFrom n (pre ++ .mk l w' :: post) ↔ post = [] ∨ v'.display.count '\n' = v.display.count '\n' := by
  obtain ⟨a, b, ha, hb⟩ := h.display
  rw [numberedFrom_append, numberedFrom_cons] at hn ⊢
  obtain ⟨h1, h2, h3⟩ := hn
  have hl : (Chunk.mk l w').lineNo = n + newlines (displayChunks pre) := h2
  simp only [h1, hl, true_and, Chunk.lines_eq, Chunk.display, ha, hb, newlines_eq_count, List.count_append, Nat.add_sub_cancel] at h3 ⊢
  cases post with
  | nil => simp [numberedFrom_nil]
  | cons c post =>
    rw [numberedFrom_cons] at h3 ⊢
    constructor
    · intro h4; right; have := h3.1; have := h4.1; omega
    · rintro (h4 | h4)
      · cases h4
      · rw [h4]; exact h3
end Ast2

namespace Ast3
open Spec

theorem allArgs_append {P} (a b : List (Str × Scope)) : AllArgs P (a ++ b) ↔ AllArgs P a ∧ AllArgs P b := by
  simp only [allArgs_iff_forall, List.mem_append]
  constructor
  · exact fun h => ⟨fun c hc => h c (.inl hc), fun c hc => h c (.inr hc)⟩
  · rintro ⟨h, h'⟩ c (hc | hc)
    · exact h c hc
    · exact h' c hc

theorem Edit.display {v v' w w'} (h : Edit v v' w w') : ∃ a b, w.display = a ++ (v.display ++ b) ∧ w'.display = a ++ (v'.display ++ b) := by
  induction h with
  | here => exact ⟨[], [], by simp, by simp⟩
  | @scope pre l w w' post sv _ ih =>
    obtain ⟨a, b, ha, hb⟩ := ih
    exact ⟨[sv.opening] ++ displayChunks pre ++ a, b ++ displayChunks post ++ [sv.closing], by simp [ChunkVariant.display, Scope.display, Command.display, Environment.display, MathsBlock.display, Chunk.display, displayChunks, displayArgs, ha, hb], by simp [ChunkVariant.display, Scope.display, Command.display, Environment.display, MathsBlock.display, Chunk.display, displayChunks, displayArgs, ha, hb]⟩
  | @arg label apre p pre l w w' post sv apost _ ih =>
    obtain ⟨a, b, ha, hb⟩ := ih
    exact ⟨'\\' :: (label ++ displayArgs apre ++ p ++ [sv.opening] ++ displayChunks pre ++ a), b ++ displayChunks post ++ [sv.closing] ++ displayArgs apost, by simp [ChunkVariant.display, Scope.display, Command.display, Environment.display, MathsBlock.display, Chunk.display, displayChunks, displayArgs, ha, hb], by simp [ChunkVariant.display, Scope.display, Command.display, Environment.display, MathsBlock.display, Chunk.display, displayChunks, displayArgs, ha, hb]⟩
  | @envArg label apre p pre l w w' post sv apost content pb pe _ ih =>
    obtain ⟨a, b, ha, hb⟩ := ih
    exact ⟨chars!"\\begin" ++ pb ++ '{' :: (label ++ '}' :: (displayArgs apre ++ p ++ [sv.opening] ++ displayChunks pre ++ a)), b ++ displayChunks post ++ [sv.closing] ++ displayArgs apost ++ displayChunks content ++ chars!"\\end" ++ pe ++ '{' :: (label ++ ['}']), by simp [ChunkVariant.display, Scope.display, Command.display, Environment.display, MathsBlock.display, Chunk.display, displayChunks, displayArgs, ha, hb], by simp [ChunkVariant.display, Scope.display, Command.display, Environment.display, MathsBlock.display, Chunk.display, displayChunks, displayArgs, ha, hb]⟩
  | @envContent label args pre l w w' post pb pe _ ih =>
    obtain ⟨a, b, ha, hb⟩ := ih
    exact ⟨chars!"\\begin" ++ pb ++ '{' :: (label ++ '}' :: (displayArgs args ++ displayChunks pre ++ a)), b ++ displayChunks post ++ chars!"\\end" ++ pe ++ '{' :: (label ++ ['}']), by simp [ChunkVariant.display, Scope.display, Command.display, Environment.display, MathsBlock.display, Chunk.display, displayChunks, displayArgs, ha, hb], by simp [ChunkVariant.display, Scope.display, Command.display, Environment.display, MathsBlock.display, Chunk.display, displayChunks, displayArgs, ha, hb]⟩
  | @maths mv mt pre l w w' post _ ih =>
    obtain ⟨a, b, ha, hb⟩ := ih
    exact ⟨(delimiters mv mt).1 ++ displayChunks pre ++ a, b ++ displayChunks post ++ (delimiters mv mt).2, by simp [ChunkVariant.display, Scope.display, Command.display, Environment.display, MathsBlock.display, Chunk.display, displayChunks, displayArgs, ha, hb], by simp [ChunkVariant.display, Scope.display, Command.display, Environment.display, MathsBlock.display, Chunk.display, displayChunks, displayArgs, ha, hb]⟩

theorem Edit.all {v v' w w'} (h : Edit v v' w w') (hw : w.All NodeOk) : w'.All NodeOk ↔ v'.All NodeOk := by
  induction h with
  | here => exact Iff.rfl
  | @scope pre l w w' post sv _ ih =>
    simp only [ChunkVariant.All, Scope.All, Command.All, Environment.All, MathsBlock.All, Chunk.All, AllChunks, AllArgs, allArgs_append, allChunks_append, NodeOk] at hw ⊢
    grind
  | @arg label apre p pre l w w' post sv apost _ ih =>
    simp only [ChunkVariant.All, Scope.All, Command.All, Environment.All, MathsBlock.All, Chunk.All, AllChunks, AllArgs, allArgs_append, allChunks_append, NodeOk] at hw ⊢
    grind
  | @envArg label apre p pre l w w' post sv apost content pb pe _ ih =>
    simp only [ChunkVariant.All, Scope.All, Command.All, Environment.All, MathsBlock.All, Chunk.All, AllChunks, AllArgs, allArgs_append, allChunks_append, NodeOk] at hw ⊢
    grind
  | @envContent label args pre l w w' post pb pe _ ih =>
    simp only [ChunkVariant.All, Scope.All, Command.All, Environment.All, MathsBlock.All, Chunk.All, AllChunks, AllArgs, allArgs_append, allChunks_append, NodeOk] at hw ⊢
    grind
  | @maths mv mt pre l w w' post _ ih =>
    simp only [ChunkVariant.All, Scope.All, Command.All, Environment.All, MathsBlock.All, Chunk.All, AllChunks, AllArgs, allArgs_append, allChunks_append, NodeOk] at hw ⊢
    grind

theorem Edit.numbered {v v' w w'} (h : Edit v v' w w') {n pre l post} (hn : NumberedFrom n (pre ++ .mk l w :: post)) :
    NumberedFrom n (pre ++ .mk l w' :: post) ↔ post = [] ∨ v'.display.count '\n' = v.display.count '\n' := by
  obtain ⟨a, b, ha, hb⟩ := h.display
  rw [numberedFrom_append, numberedFrom_cons] at hn ⊢
  obtain ⟨h1, h2, h3⟩ := hn
  have hl : (Chunk.mk l w').lineNo = n + newlines (displayChunks pre) := h2
  simp only [h1, hl, true_and, Chunk.lines_eq, Chunk.display, ha, hb, newlines_eq_count, List.count_append, Nat.add_sub_cancel] at h3 ⊢
  cases post with
  | nil => simp [numberedFrom_nil]
  | cons c post =>
    rw [numberedFrom_cons] at h3 ⊢
    constructor
    · intro h4; right; have := h3.1; have := h4.1; omega
    · rintro (h4 | h4)
      · cases h4
      · rw [h4]; exact h3
end Ast3

end LatexAst
