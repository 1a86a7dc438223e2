import Verif.Spec.Grammar

/-!
# Specification: a source in brackets
-/

namespace LatexAst.Spec

/-- The source `s` in brackets of kind `v`. -/
def inBrackets (v : ScopeVariant) (s : Str) : Str := v.opening :: (s ++ [v.closing])

/-- The command `name` with the arguments `args`, written one after the other. -/
def withArguments (name : Str) (args : List (ScopeVariant × Str)) : Str :=
  '\\' :: (name ++ args.flatMap fun x => inBrackets x.1 x.2)

/-- There is no (unescaped) bracket of kind `v` in the source: removing them changes nothing. -/
def WithoutBrackets (v : ScopeVariant) (s : Str) : Prop := dropBrackets v s = s

end LatexAst.Spec
