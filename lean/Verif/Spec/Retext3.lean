import Verif.Spec.Load3

/-!
# Specification: stage-3 documents whose texts have been edited
-/

namespace LatexAst.Ast3
open Spec

/-- The text `t'` may take the place of the text `t` at stage 3: it is empty exactly if `t` is, begins with a blank exactly if `t` does, is all
blank only if `t` is, has no special character or dollar sign that `t` does not have, begins with a special character only if `t` does, and has
no paragraph break, or newline and blanks at its end, unless `t` does. -/
structure Edits (t t' : Str) : Prop where
  empty : t' = [] ↔ t = []
  startsBlank : (∃ c r, t' = c :: r ∧ isWhitespace c = true) ↔ ∃ c r, t = c :: r ∧ isWhitespace c = true
  blank : Blank t' → Blank t
  special : ∀ c ∈ t', Special c ∨ c = '$' → c ∈ t
  first : ∀ c r, t' = c :: r → Special c → ∃ c' r', t = c' :: r' ∧ Special c'
  gap : ParagraphGap t' → ParagraphGap t
  ends : EndsInNewline t' → EndsInNewline t

/-- The paragraph break `s'` may take the place of `s`. -/
def EditsBreak (s s' : Str) : Prop := s' = s ∨ (IsBreak s ∧ IsBreak s')

variable (R B : Str → Str → Prop)

mutual
/-- `RetextedV R B v v'`: the node `v'` is `v` with each text `t` in it, at any depth, replaced by some `t'` with `R t t'`, each paragraph break
`s` by some `s'` with `B s s'`, and any line numbers. -/
def RetextedV : ChunkVariant → ChunkVariant → Prop
  | .text t, .text t' => R t t'
  | .paragraphBreak s, .paragraphBreak s' => B s s'
  | .mathsBlock (.mk v k a), .mathsBlock (.mk v' k' a') => v' = v ∧ k' = k ∧ Retexted a a'
  | .scope (.mk a v), .scope (.mk a' v') => v' = v ∧ Retexted a a'
  | .command (.mk label args), .command (.mk label' args') => label' = label ∧ RetextedArgs args args'
  | .environment (.mk label args content pb pe), .environment (.mk label' args' content' pb' pe') =>
    label' = label ∧ RetextedArgs args args' ∧ Retexted content content' ∧ pb' = pb ∧ pe' = pe
  | _, _ => False
/-- The same for sequences of chunks. -/
def Retexted : List Chunk → List Chunk → Prop
  | [], [] => True
  | .mk _ v :: cs, .mk _ v' :: cs' => RetextedV v v' ∧ Retexted cs cs'
  | _, _ => False
/-- The same for arguments. -/
def RetextedArgs : List (Str × Scope) → List (Str × Scope) → Prop
  | [], [] => True
  | (p, .mk a v) :: r, (p', .mk a' v') :: r' => p' = p ∧ v' = v ∧ Retexted a a' ∧ RetextedArgs r r'
  | _, _ => False
end

/-- The same for documents. Nothing is said about class and options. -/
structure Document.Retexted (f f' : Document) : Prop where
  preamble : Ast3.Retexted R B f.preamable f'.preamable
  bodyArgs : RetextedArgs R B f.bodyArgs f'.bodyArgs
  body : Ast3.Retexted R B f.body f'.body
  trailing : Ast3.Retexted R B f.trailing f'.trailing
  beginPrec : f'.bodyBeginPrec = f.bodyBeginPrec
  endPrec : f'.bodyEndPrec = f.bodyEndPrec

/-- Class and options are those of the `\documentclass` commands in the preamble. -/
def Document.ClassKept (f : Document) : Prop :=
  f.documentclass = (classNames (classArgs (Ast3.spelled f.preamable))).head? ∧
  ReadsLists (optionLists (classArgs (Ast3.spelled f.preamable))) f.documentoptions

end LatexAst.Ast3
