import Verif.Spec.MathsRule

/-!
# Specification: the maths that stage 3 prints as it was written

`KeepsText cs`: nothing in the stage-2 chunks `cs` is dropped or moved by the stage-3 maths conversion:

* in a dollar formula no text is left behind (`ToDollar` with an empty `lost`);
* a display formula `$$ .. $$` is closed by two dollar signs with nothing between them;
* bracket maths has no brackets of its own kind directly inside, and its delimiters have no arguments;

and the same holds inside formulas, scopes, arguments and environments.
-/

namespace LatexAst.Ast3

inductive KeepsText : List Ast2.Chunk → Prop
  | nil : KeepsText []
  | text {l t cs} : '$' ∉ t → KeepsText cs → KeepsText (.mk l (.text t) :: cs)
  /-- `q$ .. $ ..`: everything up to the next dollar sign becomes the content -/
  | inline {l q r cs kept p} : '$' ∉ q → ToDollar ⟨l + q.count '\n', [], r, cs⟩ [] kept p →
      kept ≠ [] ∨ p.pending ≠ [] →
      KeepsText ((kept ++ textIf2 p.line p.pending).map (countFrom p.line)) →
      KeepsText (.mk (p.line + p.pending.count '\n') (.text p.text) :: p.rest) →
      KeepsText (.mk l (.text (q ++ '$' :: r)) :: cs)
  /-- `q$$ .. $$ ..`: everything between the pairs of dollar signs becomes the content -/
  | display {l q r cs p₁ kept p₂ p₃} : '$' ∉ q → ToDollar ⟨l + q.count '\n', [], r, cs⟩ [] [] p₁ →
      p₁.pending = [] → ToDollar p₁ [] kept p₂ → ToDollar p₂ [] [] p₃ → p₃.pending = p₂.pending →
      KeepsText ((kept ++ textIf2 p₃.line p₃.pending).map (countFrom p₃.line)) →
      KeepsText (.mk (p₃.line + p₃.pending.count '\n') (.text p₃.text) :: p₃.rest) →
      KeepsText (.mk l (.text (q ++ '$' :: r)) :: cs)
  /-- `\( .. \)` and `\[ .. \]` -/
  | brackets {k l body l' cs} : (∀ c ∈ body, NotOfKind k c) → KeepsText body → KeepsText cs →
      KeepsText (.mk l (.command (.mk (openLabel k) [])) :: (body ++ .mk l' (.command (.mk (closeLabel k) [])) :: cs))
  | scope {l inner sv cs} : KeepsText inner → KeepsText cs → KeepsText (.mk l (.scope (.mk inner sv)) :: cs)
  | command {l label args cs} : ¬ IsDelimiter label → (∀ x ∈ args, KeepsText x.2.chunks) → KeepsText cs →
      KeepsText (.mk l (.command (.mk label args)) :: cs)
  | environment {l label args body pb pe cs} : (∀ x ∈ args, KeepsText x.2.chunks) → KeepsText body → KeepsText cs →
      KeepsText (.mk l (.environment (.mk label args body pb pe)) :: cs)

end LatexAst.Ast3
