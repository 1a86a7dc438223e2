import Verif.Model.Conv2

/-!
# Decidable equality for stage 2 (models `#[derive(PartialEq)]` on the stage 2 types)
-/

namespace LatexAst.Ast2

mutual
/-- src/ast2/chunk.rs:18 (`derive(PartialEq)`). -/
def Chunk.beq : Chunk → Chunk → Bool
  | .mk l v, .mk l' v' => l == l' && v.beq v'
/-- src/ast2/chunkvariant.rs:13 (`derive(PartialEq)`). -/
def ChunkVariant.beq : ChunkVariant → ChunkVariant → Bool
  | .text s, .text s' => s == s'
  | .command c, .command c' => c.beq c'
  | .scope s, .scope s' => s.beq s'
  | .environment s, .environment s' => s.beq s'
  | _, _ => false
/-- src/ast2/command.rs:15 (`derive(PartialEq)`). -/
def Command.beq : Command → Command → Bool
  | .mk l a, .mk l' a' => l == l' && beqArgs a a'
/-- src/ast2/scope.rs:18 (`derive(PartialEq)`). -/
def Scope.beq : Scope → Scope → Bool
  | .mk c v, .mk c' v' => beqChunks c c' && v == v'
/-- src/ast2/environment.rs:15 (`derive(PartialEq)`). -/
def Environment.beq : Environment → Environment → Bool
  | .mk l a c b e, .mk l' a' c' b' e' =>
    l == l' && (beqArgs a a' && (beqChunks c c' && (b == b' && e == e')))
/-- `Vec<Chunk>` equality. -/
def beqChunks : List Chunk → List Chunk → Bool
  | [], [] => true
  | c :: cs, c' :: cs' => c.beq c' && beqChunks cs cs'
  | _, _ => false
/-- `Vec<(String, Scope)>` equality. -/
def beqArgs : List (Str × Scope) → List (Str × Scope) → Bool
  | [], [] => true
  | (p, s) :: r, (p', s') :: r' => p == p' && (s.beq s' && beqArgs r r')
  | _, _ => false
end

mutual
theorem Chunk.beq_iff : ∀ a b : Chunk, a.beq b = true ↔ a = b
  | .mk l v, .mk l' v' => by
    have h := ChunkVariant.beq_iff v v'
    simp [Chunk.beq, h]
theorem ChunkVariant.beq_iff : ∀ a b : ChunkVariant, a.beq b = true ↔ a = b
  | .text s, b => by cases b <;> simp [ChunkVariant.beq]
  | .command c, b => by
    cases b with
    | command c' => have h := Command.beq_iff c c'; simp [ChunkVariant.beq, h]
    | _ => simp [ChunkVariant.beq]
  | .scope c, b => by
    cases b with
    | scope c' => have h := Scope.beq_iff c c'; simp [ChunkVariant.beq, h]
    | _ => simp [ChunkVariant.beq]
  | .environment c, b => by
    cases b with
    | environment c' => have h := Environment.beq_iff c c'; simp [ChunkVariant.beq, h]
    | _ => simp [ChunkVariant.beq]
theorem Command.beq_iff : ∀ a b : Command, a.beq b = true ↔ a = b
  | .mk l a, .mk l' a' => by
    have h := beqArgs_iff a a'
    simp [Command.beq, h]
theorem Scope.beq_iff : ∀ a b : Scope, a.beq b = true ↔ a = b
  | .mk c v, .mk c' v' => by
    have h := beqChunks_iff c c'
    simp [Scope.beq, h]
theorem Environment.beq_iff : ∀ a b : Environment, a.beq b = true ↔ a = b
  | .mk l a c x y, .mk l' a' c' x' y' => by
    have h := beqChunks_iff c c'
    have h' := beqArgs_iff a a'
    simp [Environment.beq, h, h']
theorem beqChunks_iff : ∀ a b : List Chunk, beqChunks a b = true ↔ a = b
  | [], b => by cases b <;> simp [beqChunks]
  | c :: cs, [] => by simp [beqChunks]
  | c :: cs, c' :: cs' => by
    have h := Chunk.beq_iff c c'
    have h' := beqChunks_iff cs cs'
    simp [beqChunks, h, h']
theorem beqArgs_iff : ∀ a b : List (Str × Scope), beqArgs a b = true ↔ a = b
  | [], b => by cases b <;> simp [beqArgs]
  | (p, s) :: cs, [] => by simp [beqArgs]
  | (p, s) :: cs, (p', s') :: cs' => by
    have h := Scope.beq_iff s s'
    have h' := beqArgs_iff cs cs'
    simp [beqArgs, h, h', and_assoc]
end

instance : DecidableEq Chunk := fun a b => decidable_of_iff _ (Chunk.beq_iff a b)
instance : DecidableEq ChunkVariant := fun a b => decidable_of_iff _ (ChunkVariant.beq_iff a b)
instance : DecidableEq Command := fun a b => decidable_of_iff _ (Command.beq_iff a b)
instance : DecidableEq Scope := fun a b => decidable_of_iff _ (Scope.beq_iff a b)
instance : DecidableEq Environment := fun a b => decidable_of_iff _ (Environment.beq_iff a b)

end LatexAst.Ast2
