import Verif.Spec.Nesting

/-!
# Specification: what going to stage 2 and back does to line numbers

`Displaced d d'`: `d'` is `d` with every `\begin` and its `\end` moved down by the newlines in (and before) the
arguments of the `\begin`; everything else is where it was.
-/

namespace LatexAst.Ast1

/-- Arguments with other contents. -/
def withInner : List ((Str × Scope) × List Chunk) → List (Str × Scope)
  | [] => []
  | ((p, sc), cs) :: r => (p, .mk cs sc.variant) :: withInner r

/-- See above. Scopes and arguments (the label apart) are gone into. -/
inductive Displaced : List Chunk → List Chunk → Prop
  | nil : Displaced [] []
  | text {l t cs ds} : Displaced cs ds → Displaced (.mk l (.text t) :: cs) (.mk l (.text t) :: ds)
  | scope {l inner inner' sv cs ds} : Displaced inner inner' → Displaced cs ds →
      Displaced (.mk l (.scope (.mk inner sv)) :: cs) (.mk l (.scope (.mk inner' sv)) :: ds)
  | command {l label cs ds} {items : List ((Str × Scope) × List Chunk)} : label ≠ chars!"begin" → label ≠ chars!"end" →
      (∀ x ∈ items, Displaced x.1.2.chunks x.2) → Displaced cs ds →
      Displaced (.mk l (.command (.mk label (items.map (·.1)))) :: cs) (.mk l (.command (.mk label (withInner items))) :: ds)
  | environment {l p lab body body' l' pe cs ds k} {items : List ((Str × Scope) × List Chunk)} : Matched body →
      (∀ x ∈ items, Displaced x.1.2.chunks x.2) → Displaced body body' → Displaced cs ds →
      k = (displayArgs ((p, .mk lab .curly) :: items.map (·.1))).count '\n' →
      Displaced
        (.mk l (.command (.mk chars!"begin" ((p, .mk lab .curly) :: items.map (·.1)))) ::
          (body ++ .mk l' (.command (.mk chars!"end" [(pe, .mk lab .curly)])) :: cs))
        (.mk (l + k) (.command (.mk chars!"begin" ((p, .mk lab .curly) :: withInner items))) ::
          (body' ++ .mk (l' + k) (.command (.mk chars!"end" [(pe, .mk lab .curly)])) :: ds))

end LatexAst.Ast1
