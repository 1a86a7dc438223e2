import Verif.Spec.Retext

/-!
# Specification: where documents may be joined
-/

namespace LatexAst.Ast1
open Spec

/-- The chunks `b` may be put right after the chunks `a`:

* no text comes next to a text;
* a text right after a letter command begins with a blank if the command has no arguments, and does not begin with a closing bracket if it
  has;
* right after a letter command, or a letter command and one blank text, there is no scope and no command `\` + blank or opening bracket. -/
def Joins (a b : List Chunk) : Prop :=
  (∀ i l t l' t' r, a = i ++ [.mk l (.text t)] → b ≠ .mk l' (.text t') :: r) ∧
  (∀ i l x name args l' t r, a = i ++ [.mk l (.command (.mk (x :: name) args))] → isAsciiAlphabetic x = true → b = .mk l' (.text t) :: r →
    (args = [] → ∃ y z, t = y :: z ∧ isWhitespace y = true) ∧ (args ≠ [] → ∀ y z, t = y :: z → y ∉ ['}', ']', ')'])) ∧
  (∀ i w w' l v r, a = i ++ w → b = w' ++ .mk l v :: r → EndsWithLetterCommand i →
    (w ++ w' = [] ∨ ∃ l t, w ++ w' = [.mk l (.text t)] ∧ Blank t) →
    (∀ sc, v ≠ .scope sc) ∧ ∀ y args, v = .command (.mk [y] args) → isWhitespace y = false ∧ y ∉ ['{', '[', '('])

end LatexAst.Ast1

namespace LatexAst.Ast2
open Spec

/-- The sequence ends with a letter command or an environment. -/
def EndsLikeCommand (cs : List Chunk) : Prop :=
  ∃ i l v, cs = i ++ [.mk l v] ∧ ((∃ x r args, v = .command (.mk (x :: r) args) ∧ isAsciiAlphabetic x = true) ∨ ∃ e, v = .environment e)

/-- The chunks `b` may be put right after the chunks `a`: as at stage 1, where an environment ends (and begins) like a letter command with
arguments. -/
def Joins (a b : List Chunk) : Prop :=
  (∀ i l t l' t' r, a = i ++ [.mk l (.text t)] → b ≠ .mk l' (.text t') :: r) ∧
  (∀ i l x name args l' t r, a = i ++ [.mk l (.command (.mk (x :: name) args))] → isAsciiAlphabetic x = true → b = .mk l' (.text t) :: r →
    (args = [] → ∃ y z, t = y :: z ∧ isWhitespace y = true) ∧ (args ≠ [] → ∀ y z, t = y :: z → y ∉ ['}', ']', ')'])) ∧
  (∀ i l env l' t r, a = i ++ [.mk l (.environment env)] → b = .mk l' (.text t) :: r → ∀ y z, t = y :: z → y ∉ ['}', ']', ')']) ∧
  (∀ i w w' l v r, a = i ++ w → b = w' ++ .mk l v :: r → EndsLikeCommand i →
    (w ++ w' = [] ∨ ∃ l t, w ++ w' = [.mk l (.text t)] ∧ Blank t) →
    (∀ sc, v ≠ .scope sc) ∧ ∀ y args, v = .command (.mk [y] args) → isWhitespace y = false ∧ y ∉ ['{', '[', '('])

/-- No bracket of kind `k` in the chunks, at any depth: no text has its closing bracket, no scope or argument is of this kind, and the same
holds for the names of the environments (which are in curly brackets), read as documents. -/
def NoBracketOf (k : ScopeVariant) (cs : List Chunk) : Prop :=
  (∀ t, Within cs (.text t) → k.closing ∉ t) ∧
  (∀ inner sv, Within cs (.scope (.mk inner sv)) → sv ≠ k) ∧
  (∀ label args prec inner sv, Within cs (.command (.mk label args)) → (prec, Scope.mk inner sv) ∈ args → sv ≠ k) ∧
  ∀ label args content pb pe, Within cs (.environment (.mk label args content pb pe)) → k ≠ .curly ∧
    (∀ prec inner sv, (prec, Scope.mk inner sv) ∈ args → sv ≠ k) ∧
    ∃ lab, Ast1.fromStr label = .ok lab ∧ Ast1.NoGroupOf k lab ∧ Ast1.NoCloserOf k lab

end LatexAst.Ast2
