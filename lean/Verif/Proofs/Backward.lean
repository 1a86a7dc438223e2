import Verif.Proofs.Forward
import Verif.Props.BackRule

/-!
# Going back to stage 2 moves no text
-/

namespace LatexAst.Ast2
open Spec

theorem words_shift (k : Nat) (cs : List Chunk) : words (cs.map (Chunk.shift k)) = words cs := by
  apply words_variants
  rw [List.map_map]
  exact List.map_congr_left fun c _ => by cases c; rfl

theorem words_join (cs : List Chunk) : words (joinTexts cs) = words cs := by
  induction cs with
  | nil => rfl
  | cons c cs ih =>
    obtain ⟨l, v⟩ := c
    cases v with
    | text t =>
      rw [words, ← ih]
      cases hj : joinTexts cs with
      | nil => simp [joinTexts, hj, words]
      | cons d r =>
        obtain ⟨m, w⟩ := d
        cases w with
        | text t' => simp [joinTexts, hj, words, ChunkVariant.words, charWords_append]
        | _ => simp [joinTexts, hj, words]
    | _ => simp only [joinTexts, words, ih]

end LatexAst.Ast2

namespace LatexAst.Ast3
open Spec

theorem OpensWith.words {δ ds es} (h : OpensWith δ ds es) (hδ : charWords δ = []) : Ast2.words es = Ast2.words ds := by
  cases h <;> simp [Ast2.words, Ast2.ChunkVariant.words, charWords_append, hδ]

theorem ClosesWith.words {δ n ds es} (h : ClosesWith δ n ds es) (hδ : charWords δ = []) : Ast2.words es = Ast2.words ds := by
  cases h <;> simp [Ast2.words, Ast2.words_append, Ast2.ChunkVariant.words, charWords_append, hδ]

theorem Delimited.words {v t n cs es} (h : Delimited v t n cs es) : Ast2.words es = Ast2.words cs := by
  cases h with
  | round => simp [Ast2.words, Ast2.words_append, Ast2.ChunkVariant.words, Ast2.Command.words]
  | square => simp [Ast2.words, Ast2.words_append, Ast2.ChunkVariant.words, Ast2.Command.words]
  | emptyDollar => rfl
  | emptyDollars => rfl
  | dollar _ h1 h2 => rw [h2.words rfl, h1.words rfl]
  | dollars _ h1 h2 => rw [h2.words rfl, h1.words rfl]

theorem args_back {items : List ((Str × Scope) × List Ast2.Chunk)} (ih : ∀ x ∈ items, Ast2.words x.2 = words x.1.2.chunks) :
    Ast2.argWords (withInner2 items) = argWords (items.map (·.1)) := by
  induction items with
  | nil => simp [withInner2, argWords, Ast2.argWords]
  | cons x r ihr =>
    obtain ⟨⟨p, ⟨inner, sv⟩⟩, o⟩ := x
    have h1 := ihr fun y hy => ih y (.tail _ hy)
    have h2 : Ast2.words o = words inner := ih _ (.head _)
    simp [withInner2, argWords, Ast2.argWords, Ast2.Scope.argWord, Scope.argWord, Scope.variant, h1, h2]

theorem Unfolds.words {cs ds} (h : Unfolds cs ds) : Ast2.words ds = words cs := by
  induction h with
  | nil => simp [Ast3.words, Ast2.words]
  | text _ ih => simp [Ast3.words, Ast2.words, ChunkVariant.words, Ast2.ChunkVariant.words, ih]
  | «break» _ ih => simp [Ast3.words, Ast2.words, ChunkVariant.words, Ast2.ChunkVariant.words, ih]
  | scope _ _ ih1 ih2 => simp [Ast3.words, Ast2.words, ChunkVariant.words, Ast2.ChunkVariant.words, Scope.words, Ast2.Scope.words, ih1, ih2]
  | command _ _ ih1 ih2 =>
    rw [Ast3.words, Ast2.words, ChunkVariant.words, Ast2.ChunkVariant.words, Command.words, Ast2.Command.words, ih2, args_back ih1]
  | environment _ _ _ ih1 ih2 ih3 =>
    rw [Ast3.words, Ast2.words, ChunkVariant.words, Ast2.ChunkVariant.words, Environment.words, Ast2.Environment.words, ih2, ih3, args_back ih1]
  | maths _ _ hd _ ih1 ih2 =>
    rw [Ast2.words_append, Ast2.words_shift, hd.words, Ast3.words, ChunkVariant.words, MathsBlock.words, ih1, ih2]

theorem DocumentUnfolds.words {f e} (h : DocumentUnfolds f e) : Ast2.words e = f.words := by
  cases h with
  | mk h1 h2 h3 h4 h5 =>
    rw [Ast2.words_append, Ast2.words, Ast2.words_join, Ast2.words_shift, Ast2.ChunkVariant.words, Ast2.Environment.words, Ast2.words_shift,
      h1.words, h2.words, h5.words, args_back fun x hx => (h4 x hx).words, Document.words, h3]
    rfl

end LatexAst.Ast3
