import Verif.Model.Parser1

/-!
# The derived `PartialEq` of stage 1 is equality

`Chunk.beq` etc. model `#[derive(PartialEq)]`; these lemmas show they decide Lean equality.
-/

namespace LatexAst.Ast1

mutual
theorem Chunk.beq_iff : ∀ a b : Chunk, a.beq b = true ↔ a = b
  | .mk l v, .mk l' v' => by
    have h := ChunkVariant.beq_iff v v'
    simp [Chunk.beq, h]
theorem ChunkVariant.beq_iff : ∀ a b : ChunkVariant, a.beq b = true ↔ a = b
  | .text s, b => by cases b <;> simp [ChunkVariant.beq]
  | .command c, .command c' => by
    have h := Command.beq_iff c c'
    simp [ChunkVariant.beq, h]
  | .command c, .text _ => by simp [ChunkVariant.beq]
  | .command c, .scope _ => by simp [ChunkVariant.beq]
  | .scope c, .scope c' => by
    have h := Scope.beq_iff c c'
    simp [ChunkVariant.beq, h]
  | .scope c, .text _ => by simp [ChunkVariant.beq]
  | .scope c, .command _ => by simp [ChunkVariant.beq]
theorem Command.beq_iff : ∀ a b : Command, a.beq b = true ↔ a = b
  | .mk l a, .mk l' a' => by
    have h := beqArgs_iff a a'
    simp [Command.beq, h]
theorem Scope.beq_iff : ∀ a b : Scope, a.beq b = true ↔ a = b
  | .mk c v, .mk c' v' => by
    have h := beqChunks_iff c c'
    simp [Scope.beq, h]
theorem beqChunks_iff : ∀ a b : List Chunk, beqChunks a b = true ↔ a = b
  | [], b => by cases b <;> simp [beqChunks]
  | c :: cs, [] => by simp [beqChunks]
  | c :: cs, c' :: cs' => by
    have h := Chunk.beq_iff c c'
    have h' := beqChunks_iff cs cs'
    simp [beqChunks, h, h']
theorem beqArgs_iff : ∀ a b : List (Str × Scope), beqArgs a b = true ↔ a = b
  | [], b => by cases b <;> simp [beqArgs]
  | (p, s) :: cs, [] => by simp [beqArgs]
  | (p, s) :: cs, (p', s') :: cs' => by
    have h := Scope.beq_iff s s'
    have h' := beqArgs_iff cs cs'
    simp [beqArgs, h, h', and_assoc]
end

instance : DecidableEq Chunk := fun a b => decidable_of_iff _ (Chunk.beq_iff a b)
instance : DecidableEq ChunkVariant := fun a b => decidable_of_iff _ (ChunkVariant.beq_iff a b)
instance : DecidableEq Command := fun a b => decidable_of_iff _ (Command.beq_iff a b)
instance : DecidableEq Scope := fun a b => decidable_of_iff _ (Scope.beq_iff a b)

end LatexAst.Ast1
