import Verif.Spec.WellFormed
import Verif.Model.Conv2

/-!
# Specification: documents whose texts have been replaced
-/

namespace LatexAst.Spec

/-- The text `t'` may take the place of the text `t`: it is not empty unless `t` is, begins with a blank if `t` does, is all blank only if `t`
is or begins with a special character, has no special characters that `t` does not have, and begins with a special character only if `t` does. -/
structure Replaces (t t' : Str) : Prop where
  empty : t' = [] → t = []
  startsBlank : (∃ c r, t = c :: r ∧ isWhitespace c = true) → ∃ c r, t' = c :: r ∧ isWhitespace c = true
  blank : Blank t' → Blank t ∨ ∃ c r, t = c :: r ∧ Special c
  special : ∀ c ∈ t', Special c → c ∈ t
  first : ∀ c r, t' = c :: r → Special c → ∃ c' r', t = c' :: r' ∧ Special c'

end LatexAst.Spec

namespace LatexAst.Ast1
open Spec

variable (R : Str → Str → Prop)

mutual
/-- `RetextedV R v v'`: the node `v'` is `v` with each text `t` in it, at any depth, replaced by some `t'` with `R t t'`, and any line
numbers. -/
def RetextedV : ChunkVariant → ChunkVariant → Prop
  | .text t, .text t' => R t t'
  | .scope (.mk a v), .scope (.mk a' v') => v' = v ∧ Retexted a a'
  | .command (.mk label args), .command (.mk label' args') => label' = label ∧ RetextedArgs args args'
  | _, _ => False
/-- The same for sequences of chunks, so for documents. -/
def Retexted : List Chunk → List Chunk → Prop
  | [], [] => True
  | .mk _ v :: cs, .mk _ v' :: cs' => RetextedV v v' ∧ Retexted cs cs'
  | _, _ => False
/-- The same for arguments. -/
def RetextedArgs : List (Str × Scope) → List (Str × Scope) → Prop
  | [], [] => True
  | (p, .mk a v) :: r, (p', .mk a' v') :: r' => p' = p ∧ v' = v ∧ Retexted a a' ∧ RetextedArgs r r'
  | _, _ => False
end

/-- The documents are the same, apart from line numbers. -/
def SameButLines : List Chunk → List Chunk → Prop := Retexted fun t t' => t' = t

/-- The document survives saving (printing) and loading (parsing): it comes back, apart from line numbers. -/
def Survives (d : Document) : Prop := ∃ d', fromStr (displayChunks d) = .ok d' ∧ SameButLines d d'

end LatexAst.Ast1

namespace LatexAst.Ast2
open Spec

variable (R : Str → Str → Prop)

mutual
/-- See above. Labels of environments are not texts, and stay. -/
def RetextedV : ChunkVariant → ChunkVariant → Prop
  | .text t, .text t' => R t t'
  | .scope (.mk a v), .scope (.mk a' v') => v' = v ∧ Retexted a a'
  | .command (.mk label args), .command (.mk label' args') => label' = label ∧ RetextedArgs args args'
  | .environment (.mk label args content pb pe), .environment (.mk label' args' content' pb' pe') =>
    label' = label ∧ RetextedArgs args args' ∧ Retexted content content' ∧ pb' = pb ∧ pe' = pe
  | _, _ => False
/-- The same for sequences of chunks, so for documents. -/
def Retexted : List Chunk → List Chunk → Prop
  | [], [] => True
  | .mk _ v :: cs, .mk _ v' :: cs' => RetextedV v v' ∧ Retexted cs cs'
  | _, _ => False
/-- The same for arguments. -/
def RetextedArgs : List (Str × Scope) → List (Str × Scope) → Prop
  | [], [] => True
  | (p, .mk a v) :: r, (p', .mk a' v') :: r' => p' = p ∧ v' = v ∧ Retexted a a' ∧ RetextedArgs r r'
  | _, _ => False
end

/-- The documents are the same, apart from line numbers. -/
def SameButLines : List Chunk → List Chunk → Prop := Retexted fun t t' => t' = t

/-- The document survives saving and loading. -/
def Survives (d : Document) : Prop := ∃ d', fromStr (displayChunks d) = .ok d' ∧ SameButLines d d'

end LatexAst.Ast2
