import Verif.Spec.Tree

/-!
# Specification: replacing one node of a tree

`Edit v v' w w'`: `w'` is `w` with one occurrence of the node `v`, at any depth, replaced by `v'`; nothing else, in
particular no line number, is changed.
-/

namespace LatexAst

namespace Ast1
/-- See above. -/
inductive Edit (v v' : ChunkVariant) : ChunkVariant → ChunkVariant → Prop
  | here : Edit v v' v v'
  | scope {pre l w w' post sv} : Edit v v' w w' →
      Edit v v' (.scope (.mk (pre ++ .mk l w :: post) sv)) (.scope (.mk (pre ++ .mk l w' :: post) sv))
  | arg {label apre p pre l w w' post sv apost} : Edit v v' w w' →
      Edit v v' (.command (.mk label (apre ++ (p, .mk (pre ++ .mk l w :: post) sv) :: apost)))
        (.command (.mk label (apre ++ (p, .mk (pre ++ .mk l w' :: post) sv) :: apost)))
end Ast1

namespace Ast2
/-- See above. -/
inductive Edit (v v' : ChunkVariant) : ChunkVariant → ChunkVariant → Prop
  | here : Edit v v' v v'
  | scope {pre l w w' post sv} : Edit v v' w w' →
      Edit v v' (.scope (.mk (pre ++ .mk l w :: post) sv)) (.scope (.mk (pre ++ .mk l w' :: post) sv))
  | arg {label apre p pre l w w' post sv apost} : Edit v v' w w' →
      Edit v v' (.command (.mk label (apre ++ (p, .mk (pre ++ .mk l w :: post) sv) :: apost)))
        (.command (.mk label (apre ++ (p, .mk (pre ++ .mk l w' :: post) sv) :: apost)))
  | envArg {label apre p pre l w w' post sv apost content pb pe} : Edit v v' w w' →
      Edit v v' (.environment (.mk label (apre ++ (p, .mk (pre ++ .mk l w :: post) sv) :: apost) content pb pe))
        (.environment (.mk label (apre ++ (p, .mk (pre ++ .mk l w' :: post) sv) :: apost) content pb pe))
  | envContent {label args pre l w w' post pb pe} : Edit v v' w w' →
      Edit v v' (.environment (.mk label args (pre ++ .mk l w :: post) pb pe)) (.environment (.mk label args (pre ++ .mk l w' :: post) pb pe))
end Ast2

namespace Ast3
/-- See above. -/
inductive Edit (v v' : ChunkVariant) : ChunkVariant → ChunkVariant → Prop
  | here : Edit v v' v v'
  | scope {pre l w w' post sv} : Edit v v' w w' →
      Edit v v' (.scope (.mk (pre ++ .mk l w :: post) sv)) (.scope (.mk (pre ++ .mk l w' :: post) sv))
  | arg {label apre p pre l w w' post sv apost} : Edit v v' w w' →
      Edit v v' (.command (.mk label (apre ++ (p, .mk (pre ++ .mk l w :: post) sv) :: apost)))
        (.command (.mk label (apre ++ (p, .mk (pre ++ .mk l w' :: post) sv) :: apost)))
  | envArg {label apre p pre l w w' post sv apost content pb pe} : Edit v v' w w' →
      Edit v v' (.environment (.mk label (apre ++ (p, .mk (pre ++ .mk l w :: post) sv) :: apost) content pb pe))
        (.environment (.mk label (apre ++ (p, .mk (pre ++ .mk l w' :: post) sv) :: apost) content pb pe))
  | envContent {label args pre l w w' post pb pe} : Edit v v' w w' →
      Edit v v' (.environment (.mk label args (pre ++ .mk l w :: post) pb pe)) (.environment (.mk label args (pre ++ .mk l w' :: post) pb pe))
  | maths {mv mt pre l w w' post} : Edit v v' w w' →
      Edit v v' (.mathsBlock (.mk mv mt (pre ++ .mk l w :: post))) (.mathsBlock (.mk mv mt (pre ++ .mk l w' :: post)))
end Ast3

end LatexAst
