import Verif.Proofs.Fault

/-!
# C25: the line of a stage-2 error, exactly

`Spec/Fault.lean` says where the first problem of a document is, without line numbers.
-/

namespace LatexAst.Ast2
open Spec

/-- C25, exactly: a source is rejected with line `L` and type `t` if and only if its first problem is of type `t`,
and `L` is the line of the problem (one plus the line breaks before it), plus one for every scope and
environment around it, minus the line breaks before the arguments around it. Missing: that it is the line of the
problem, which is false of the code (`C25_false`). -/
theorem C25_exact_partial (s : Str) (d : Ast1.Document) (hd : Ast1.fromStr s = .ok d) (L : Nat) (t : ErrorType) :
    fromStr s = .error (.err ⟨L, t⟩) ↔ ∃ q k n, Fault d q k n t ∧ L + n = 1 + q.count '\n' + k := by
  have hs := Ast1.sane_parsed hd
  simp only [fromStr, hd, ← newlines_eq_count]
  constructor
  · intro h
    have hc := (converts_iff (Ast1.sane_numbered hs) (.error ⟨L, t⟩)).2 h
    have := fault_of_converts hc [] (inOrder_iff.2 ⟨.nil, by
        intro inner h
        cases h with
        | scope h => simp at h
        | arg h => simp at h
        | beginArg h => simp at h⟩) (by simpa using hs) _ rfl
    simpa using this
  · rintro ⟨q, k, n, h1, h2⟩
    obtain ⟨L', h3, h4⟩ := converts_of_fault _ (Nat.lt_succ_self _) h1 hs
    have : L' = L := by omega
    rw [h3, this]

/-- C25: the problem lies in the printed document, and the lines left out are among those before it. -/
theorem C25_place (d : Ast1.Document) (q : Str) (k n : Nat) (t : ErrorType) (h : Fault d q k n t) :
    q <+: Ast1.displayChunks d ∧ n ≤ q.count '\n' := by
  have := fault_prefix h
  rwa [newlines_eq_count] at this

/-- C25: the line reported is the line of the problem if and only if the scopes and environments around it make up
for the lines left out; in particular if it is in no scope, environment or argument. -/
theorem C25_correct_iff_partial (s : Str) (d : Ast1.Document) (hd : Ast1.fromStr s = .ok d) (q : Str) (k n : Nat)
    (t : ErrorType) (h : Fault d q k n t) : fromStr s = .error (.err ⟨1 + q.count '\n', t⟩) ↔ k = n := by
  have hle := (C25_place d q k n t h).2
  have h0 := (C25_exact_partial s d hd (1 + q.count '\n' + k - n) t).2 ⟨q, k, n, h, by omega⟩
  rw [h0]
  constructor
  · intro h'
    simp only [Except.error.injEq, Fail.err.injEq, Error.mk.injEq, and_true] at h'
    omega
  · rintro rfl
    have : 1 + q.count '\n' + k - k = 1 + q.count '\n' := by omega
    rw [this]

/-- C25: a source is rejected by stage 2 exactly if it has a first problem, and all derivations of it agree. -/
theorem C25_unique_partial (s : Str) (d : Ast1.Document) (hd : Ast1.fromStr s = .ok d) (q q' : Str) (k k' n n' : Nat)
    (t t' : ErrorType) (h : Fault d q k n t) (h' : Fault d q' k' n' t') :
    t = t' ∧ q.count '\n' + k + n' = q'.count '\n' + k' + n := by
  have hle := (C25_place d q k n t h).2
  have hle' := (C25_place d q' k' n' t' h').2
  have h0 := (C25_exact_partial s d hd (1 + q.count '\n' + k - n) t).2 ⟨q, k, n, h, by omega⟩
  have h1 := (C25_exact_partial s d hd (1 + q'.count '\n' + k' - n') t').2 ⟨q', k', n', h', by omega⟩
  rw [h0] at h1
  simp only [Except.error.injEq, Fail.err.injEq, Error.mk.injEq] at h1
  exact ⟨h1.2, by omega⟩

/-- An `\end` on line 3, in a scope of an argument on line 2: the line break before the argument is left out, and the
scope counts for one, so the line reported is right. -/
theorem fault_example : Fault [.mk 1 (.text chars!"a\n"),
      .mk 2 (.command (.mk chars!"f" [([], .mk [.mk 1 (.scope (.mk [.mk 1 (.text chars!"\n"), .mk 2 (.command (.mk chars!"end" [([], .mk [] .curly)]))] .curly))] .square)]))]
    chars!"a\n\\f[{\n" 1 1 (.unexpectedEnd []) := by
  have nil : InOrder [] := inOrder_iff.2 ⟨.nil, by
        intro inner h
        cases h with
        | scope h => simp at h
        | arg h => simp at h
        | beginArg h => simp at h⟩
  have text : ∀ l t, InOrder [Ast1.Chunk.mk l (.text t)] := by
    intro l t
    refine inOrder_single (by rintro ⟨_, _, h, _⟩; cases h) ?_
    intro inner h
    cases h with
    | scope h => simp at h
    | arg h => simp at h
    | beginArg h => simp at h
  have h1 : Fault [.mk 1 (.text chars!"\n"), .mk 2 (.command (.mk chars!"end" [([], .mk [] .curly)]))] chars!"\n" 0 0 (.unexpectedEnd []) :=
    .bad (a := [_]) (post := []) (text 1 chars!"\n") (.unexpectedEnd (p := []) (lab := []) (r := []) rfl (by simp))
  have h2 := Fault.scope (a := []) (l := 1) (sv := .curly) (post := []) nil h1
  exact Fault.arg (a := [.mk 1 (.text chars!"a\n")]) (l := 2) (label := chars!"f") (a1 := []) (p := []) (sv := .square) (a2 := [])
    (post := []) (text 1 chars!"a\n") (by decide) (by decide) (by simp) h2

example : fromStr chars!"a\n\\f[{\n\\end{}}]" = .error (.err ⟨3, .unexpectedEnd []⟩) := by decide +kernel
example : fromStr chars!"a\n\\f[\n\\end{}]" = .error (.err ⟨2, .unexpectedEnd []⟩) := by decide +kernel
example : fromStr chars!"\\begin{x}\n.{\\end{}}\\end{x}" = .error (.err ⟨4, .unexpectedEnd []⟩) := by decide +kernel

end LatexAst.Ast2
