import Verif.Spec.Maths

/-!
# Specification: what dollar formulas look like

In a dollar formula texts come last, and the formulas directly in it have no texts.
-/

namespace LatexAst.Ast3

/-- A text or a paragraph break. -/
def Wordy (c : Chunk) : Prop := (∃ t, c.variant = .text t) ∨ ∃ t, c.variant = .paragraphBreak t

mutual
/-- There is no text and no paragraph break, nor in the formulas directly within. -/
def wordless : List Chunk → Prop
  | [] => True
  | .mk _ v :: r => v.wordless ∧ wordless r
/-- The same for one chunk. -/
def ChunkVariant.wordless : ChunkVariant → Prop
  | .text _ => False
  | .paragraphBreak _ => False
  | .mathsBlock m => m.wordless
  | .command _ => True
  | .scope _ => True
  | .environment _ => True
/-- The same for a formula. -/
def MathsBlock.wordless : MathsBlock → Prop
  | .mk _ _ cs => LatexAst.Ast3.wordless cs
end

/-- First what has no texts, then texts. -/
def WordsLast (cs : List Chunk) : Prop := ∃ xs ys, cs = xs ++ ys ∧ wordless xs ∧ ∀ c ∈ ys, Wordy c

/-- What a formula contains. -/
def FormulaForm : MathsVariant → MathsType → List Chunk → Prop
  | .brackets, _, _ => True
  | .dollars, .inline, cs => WordsLast cs ∧ cs ≠ []
  | .dollars, .outline, cs => WordsLast cs

mutual
/-- Every formula, at any depth, has this form. -/
def formed : List Chunk → Prop
  | [] => True
  | .mk _ v :: r => v.formed ∧ formed r
/-- Within one chunk. -/
def ChunkVariant.formed : ChunkVariant → Prop
  | .text _ => True
  | .paragraphBreak _ => True
  | .mathsBlock m => m.formed
  | .command c => c.formed
  | .scope s => s.formed
  | .environment e => e.formed
/-- A formula and what is in it. -/
def MathsBlock.formed : MathsBlock → Prop
  | .mk v t cs => FormulaForm v t cs ∧ LatexAst.Ast3.formed cs
/-- Within the arguments of a command. -/
def Command.formed : Command → Prop
  | .mk _ args => formedArgs args
/-- Within a scope. -/
def Scope.formed : Scope → Prop
  | .mk cs _ => LatexAst.Ast3.formed cs
/-- Within an environment and its arguments. -/
def Environment.formed : Environment → Prop
  | .mk _ args cs _ _ => formedArgs args ∧ LatexAst.Ast3.formed cs
/-- Within arguments. -/
def formedArgs : List (Str × Scope) → Prop
  | [] => True
  | (_, s) :: r => s.formed ∧ formedArgs r
end

end LatexAst.Ast3
