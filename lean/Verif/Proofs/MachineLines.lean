import Verif.Model.MachineLines
import Verif.Proofs.Lines

/-! `lines()` with machine integers is exact. -/

namespace LatexAst

theorem asU32_small {n : Nat} (h : n < u32Size) : asU32 n = n := Nat.mod_eq_of_lt h

theorem text_linesA (A : Arith) (s : Str) (h : newlines s + 1 < u32Size) :
    A.add (asU32 (newlines s)) 1 = .ok (newlines s + 1) := by
  rw [asU32_small (by omega)]
  exact A.add_exact _ _ h

end LatexAst

namespace LatexAst.Ast1
variable (A : Arith)

mutual
theorem Chunk.linesA_eq : ∀ c : Chunk, c.lines < u32Size → c.linesA A = .ok c.lines
  | .mk _ v, h => v.linesA_eq h
theorem ChunkVariant.linesA_eq : ∀ v : ChunkVariant, v.lines < u32Size → v.linesA A = .ok v.lines
  | .text s, h => text_linesA A s h
  | .command c, h => c.linesA_eq h
  | .scope sc, h => sc.linesA_eq h
theorem Command.linesA_eq : ∀ c : Command, c.lines < u32Size → c.linesA A = .ok c.lines
  | .mk label args, h => by
    simp only [Command.lines] at h
    simp only [Command.linesA, Command.lines]
    rw [asU32_small (by omega), linesArgsA_eq args _ (by omega)]
    exact A.add_exact _ _ h
theorem Scope.linesA_eq : ∀ sc : Scope, sc.lines < u32Size → sc.linesA A = .ok sc.lines
  | .mk chunks _, h => by
    simp only [Scope.lines] at h
    simp only [Scope.linesA, Scope.lines]
    rw [linesSumA_eq chunks 0 (by omega), Nat.zero_add]
    exact A.add_exact _ _ h
theorem linesSumA_eq : ∀ (cs : List Chunk) (acc : Nat), acc + linesSum cs + 1 < u32Size →
    linesSumA A acc cs = .ok (acc + linesSum cs)
  | [], acc, _ => rfl
  | c :: cs, acc, h => by
    simp only [linesSum] at h
    have hp : 1 ≤ c.lines := by rw [Chunk.lines_eq]; omega
    simp only [linesSumA, linesSum]
    rw [c.linesA_eq (by omega)]
    simp only
    rw [A.sub_exact _ _ hp (by omega)]
    simp only
    rw [A.add_exact _ _ (by omega)]
    simp only
    rw [linesSumA_eq cs _ (by omega)]
    congr 1
    omega
theorem linesArgsA_eq : ∀ (args : List (Str × Scope)) (acc : Nat), acc + linesArgs args + 1 < u32Size →
    linesArgsA A acc args = .ok (acc + linesArgs args)
  | [], acc, _ => rfl
  | (prec, sc) :: r, acc, h => by
    simp only [linesArgs] at h
    have hp : 1 ≤ sc.lines := by rw [Scope.lines_eq]; omega
    simp only [linesArgsA, linesArgs]
    rw [asU32_small (by omega), A.add_exact _ _ (by omega)]
    simp only
    rw [sc.linesA_eq (by omega)]
    simp only
    rw [A.sub_exact _ _ hp (by omega)]
    simp only
    rw [A.add_exact _ _ (by omega)]
    simp only
    rw [linesArgsA_eq r _ (by omega)]
    congr 1
    omega
end

theorem nextLineA_eq (d : List Chunk) (h : ∀ c, d.getLast? = some c → c.lineNo + c.lines < u32Size) :
    nextLineA A d = .ok (Document.nextLine d) := by
  simp only [nextLineA, Document.nextLine]
  cases hd : d.getLast? with
  | none => rfl
  | some c =>
    have h1 := h c hd
    have hp : 1 ≤ c.lines := by rw [Chunk.lines_eq]; omega
    simp only
    rw [c.linesA_eq A (by omega)]
    simp only
    rw [A.add_exact _ _ h1]
    exact A.sub_exact _ _ (by omega) h1

theorem validateFromA_eq (cs : List Chunk) (k : Nat) (h : k + linesSum cs + 1 < u32Size) :
    validateFromA A k cs = .ok (Document.validateFrom k cs) := by
  induction cs generalizing k with
  | nil => rfl
  | cons c cs ih =>
    simp only [linesSum] at h
    have hp : 1 ≤ c.lines := by rw [Chunk.lines_eq]; omega
    simp only [validateFromA, Document.validateFrom]
    split
    · rfl
    · cases hv : c.validate with
      | error e => rfl
      | ok u =>
        simp only
        rw [c.linesA_eq A (by omega)]
        simp only
        rw [A.sub_exact _ _ hp (by omega)]
        simp only
        rw [A.add_exact _ _ (by omega)]
        exact ih _ (by omega)

end LatexAst.Ast1

namespace LatexAst.Ast2
variable (A : Arith)

mutual
theorem Chunk.linesA_eq : ∀ c : Chunk, c.lines < u32Size → c.linesA A = .ok c.lines
  | .mk _ v, h => v.linesA_eq h
theorem ChunkVariant.linesA_eq : ∀ v : ChunkVariant, v.lines < u32Size → v.linesA A = .ok v.lines
  | .text s, h => text_linesA A s h
  | .command c, h => c.linesA_eq h
  | .scope sc, h => sc.linesA_eq h
  | .environment e, h => e.linesA_eq h
theorem Command.linesA_eq : ∀ c : Command, c.lines < u32Size → c.linesA A = .ok c.lines
  | .mk label args, h => by
    simp only [Command.lines] at h
    simp only [Command.linesA, Command.lines]
    rw [asU32_small (by omega), linesArgsA_eq args _ (by omega)]
    exact A.add_exact _ _ h
theorem Scope.linesA_eq : ∀ sc : Scope, sc.lines < u32Size → sc.linesA A = .ok sc.lines
  | .mk chunks _, h => by
    simp only [Scope.lines] at h
    simp only [Scope.linesA, Scope.lines]
    rw [linesSumA_eq chunks 0 (by omega), Nat.zero_add]
    exact A.add_exact _ _ h
theorem Environment.linesA_eq : ∀ e : Environment, e.lines < u32Size → e.linesA A = .ok e.lines
  | .mk label args content pb pe, h => by
    simp only [Environment.lines] at h
    simp only [Environment.linesA, Environment.lines]
    rw [asU32_small (by omega), asU32_small (by omega), A.add_exact _ _ (by omega)]
    simp only
    rw [A.add_exact _ _ (by omega)]
    simp only
    rw [linesArgsA_eq args _ (by omega)]
    simp only
    rw [linesSumA_eq content _ (by omega)]
    simp only
    rw [A.add_exact _ _ (by omega)]
    congr 1
    omega
theorem linesSumA_eq : ∀ (cs : List Chunk) (acc : Nat), acc + linesSum cs + 1 < u32Size →
    linesSumA A acc cs = .ok (acc + linesSum cs)
  | [], acc, _ => rfl
  | c :: cs, acc, h => by
    simp only [linesSum] at h
    have hp : 1 ≤ c.lines := by rw [Chunk.lines_eq]; omega
    simp only [linesSumA, linesSum]
    rw [c.linesA_eq (by omega)]
    simp only
    rw [A.sub_exact _ _ hp (by omega)]
    simp only
    rw [A.add_exact _ _ (by omega)]
    simp only
    rw [linesSumA_eq cs _ (by omega)]
    congr 1
    omega
theorem linesArgsA_eq : ∀ (args : List (Str × Scope)) (acc : Nat), acc + linesArgs args + 1 < u32Size →
    linesArgsA A acc args = .ok (acc + linesArgs args)
  | [], acc, _ => rfl
  | (prec, sc) :: r, acc, h => by
    simp only [linesArgs] at h
    have hp : 1 ≤ sc.lines := by rw [Scope.lines_eq]; omega
    simp only [linesArgsA, linesArgs]
    rw [asU32_small (by omega), A.add_exact _ _ (by omega)]
    simp only
    rw [sc.linesA_eq (by omega)]
    simp only
    rw [A.sub_exact _ _ hp (by omega)]
    simp only
    rw [A.add_exact _ _ (by omega)]
    simp only
    rw [linesArgsA_eq r _ (by omega)]
    congr 1
    omega
end

theorem nextLineA_eq (d : List Chunk) (h : ∀ c, d.getLast? = some c → c.lineNo + c.lines < u32Size) :
    nextLineA A d = .ok (Document.nextLine d) := by
  simp only [nextLineA, Document.nextLine]
  cases hd : d.getLast? with
  | none => rfl
  | some c =>
    have h1 := h c hd
    have hp : 1 ≤ c.lines := by rw [Chunk.lines_eq]; omega
    simp only
    rw [c.linesA_eq A (by omega)]
    simp only
    rw [A.add_exact _ _ h1]
    exact A.sub_exact _ _ (by omega) h1

theorem validateFromA_eq (cs : List Chunk) (k : Nat) (h : k + linesSum cs + 1 < u32Size) :
    validateFromA A k cs = .ok (Document.validateFrom k cs) := by
  induction cs generalizing k with
  | nil => rfl
  | cons c cs ih =>
    simp only [linesSum] at h
    have hp : 1 ≤ c.lines := by rw [Chunk.lines_eq]; omega
    simp only [validateFromA, Document.validateFrom]
    split
    · rfl
    · cases hv : c.validate with
      | error e => rfl
      | ok u =>
        simp only
        rw [c.linesA_eq A (by omega)]
        simp only
        rw [A.sub_exact _ _ hp (by omega)]
        simp only
        rw [A.add_exact _ _ (by omega)]
        exact ih _ (by omega)

end LatexAst.Ast2

namespace LatexAst.Ast3
variable (A : Arith)

mutual
theorem Chunk.linesA_eq : ∀ c : Chunk, c.lines < u32Size → c.linesA A = .ok c.lines
  | .mk _ v, h => v.linesA_eq h
theorem ChunkVariant.linesA_eq : ∀ v : ChunkVariant, v.lines < u32Size → v.linesA A = .ok v.lines
  | .text s, h => text_linesA A s h
  | .paragraphBreak s, h => text_linesA A s h
  | .command c, h => c.linesA_eq h
  | .scope sc, h => sc.linesA_eq h
  | .environment e, h => e.linesA_eq h
  | .mathsBlock m, h => m.linesA_eq h
theorem Command.linesA_eq : ∀ c : Command, c.lines < u32Size → c.linesA A = .ok c.lines
  | .mk label args, h => by
    simp only [Command.lines] at h
    simp only [Command.linesA, Command.lines]
    rw [asU32_small (by omega), linesArgsA_eq args _ (by omega)]
    exact A.add_exact _ _ h
theorem Scope.linesA_eq : ∀ sc : Scope, sc.lines < u32Size → sc.linesA A = .ok sc.lines
  | .mk chunks _, h => by
    simp only [Scope.lines] at h
    simp only [Scope.linesA, Scope.lines]
    rw [linesSumA_eq chunks 0 (by omega), Nat.zero_add]
    exact A.add_exact _ _ h
theorem Environment.linesA_eq : ∀ e : Environment, e.lines < u32Size → e.linesA A = .ok e.lines
  | .mk label args content pb pe, h => by
    simp only [Environment.lines] at h
    simp only [Environment.linesA, Environment.lines]
    rw [asU32_small (by omega), asU32_small (by omega), A.add_exact _ _ (by omega)]
    simp only
    rw [A.add_exact _ _ (by omega)]
    simp only
    rw [linesArgsA_eq args _ (by omega)]
    simp only
    rw [linesSumA_eq content _ (by omega)]
    simp only
    rw [A.add_exact _ _ (by omega)]
    congr 1
    omega
theorem MathsBlock.linesA_eq : ∀ m : MathsBlock, m.lines < u32Size → m.linesA A = .ok m.lines
  | .mk _ _ content, h => by
    simp only [MathsBlock.lines] at h
    simp only [MathsBlock.linesA, MathsBlock.lines]
    rw [linesSumA_eq content 0 (by omega), Nat.zero_add]
    exact A.add_exact _ _ h
theorem linesSumA_eq : ∀ (cs : List Chunk) (acc : Nat), acc + linesSum cs + 1 < u32Size →
    linesSumA A acc cs = .ok (acc + linesSum cs)
  | [], acc, _ => rfl
  | c :: cs, acc, h => by
    simp only [linesSum] at h
    have hp : 1 ≤ c.lines := by rw [Chunk.lines_eq]; omega
    simp only [linesSumA, linesSum]
    rw [c.linesA_eq (by omega)]
    simp only
    rw [A.sub_exact _ _ hp (by omega)]
    simp only
    rw [A.add_exact _ _ (by omega)]
    simp only
    rw [linesSumA_eq cs _ (by omega)]
    congr 1
    omega
theorem linesArgsA_eq : ∀ (args : List (Str × Scope)) (acc : Nat), acc + linesArgs args + 1 < u32Size →
    linesArgsA A acc args = .ok (acc + linesArgs args)
  | [], acc, _ => rfl
  | (prec, sc) :: r, acc, h => by
    simp only [linesArgs] at h
    have hp : 1 ≤ sc.lines := by rw [Scope.lines_eq]; omega
    simp only [linesArgsA, linesArgs]
    rw [asU32_small (by omega), A.add_exact _ _ (by omega)]
    simp only
    rw [sc.linesA_eq (by omega)]
    simp only
    rw [A.sub_exact _ _ hp (by omega)]
    simp only
    rw [A.add_exact _ _ (by omega)]
    simp only
    rw [linesArgsA_eq r _ (by omega)]
    congr 1
    omega
end

theorem nextLineA_eq (d : List Chunk) (h : ∀ c, d.getLast? = some c → c.lineNo + c.lines < u32Size) :
    nextLineA A d = .ok (nextLine d) := by
  simp only [nextLineA, nextLine]
  cases hd : d.getLast? with
  | none => rfl
  | some c =>
    have h1 := h c hd
    have hp : 1 ≤ c.lines := by rw [Chunk.lines_eq]; omega
    simp only
    rw [c.linesA_eq A (by omega)]
    simp only
    rw [A.add_exact _ _ h1]
    exact A.sub_exact _ _ (by omega) h1

theorem validateFromA_eq (cs : List Chunk) (k : Nat) (h : k + linesSum cs + 1 < u32Size) :
    validateFromA A k cs = .ok (validateFrom k cs) := by
  induction cs generalizing k with
  | nil => rfl
  | cons c cs ih =>
    simp only [linesSum] at h
    have hp : 1 ≤ c.lines := by rw [Chunk.lines_eq]; omega
    simp only [validateFromA, validateFrom]
    split
    · rfl
    · cases hv : c.validate with
      | error e => rfl
      | ok u =>
        simp only
        rw [c.linesA_eq A (by omega)]
        simp only
        rw [A.sub_exact _ _ hp (by omega)]
        simp only
        rw [A.add_exact _ _ (by omega)]
        exact ih _ (by omega)

end LatexAst.Ast3

