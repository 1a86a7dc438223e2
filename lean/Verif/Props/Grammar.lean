import Verif.Proofs.Grammar4
import Verif.Model.Eq1

/-!
# Stage 1: the parser computes the grammar (C51), and reading is compositional (C52)

`Spec/Grammar.lean` defines `Reads` (how a source is cut into texts, scopes and commands) and
`TextEnds`, `Complete`, `Chunk.shift`.
-/

namespace LatexAst.Ast1
open Spec

/-! ### C51 -/

/-- C51, success: a self-contained source (no comment, no dangling backslash) is parsed to `d` exactly
when the grammar reads it as `d`. -/
theorem C51 (s : Str) (h : SelfContained s) (d : Document) : fromStr s = .ok d ↔ Reads 1 s (.ok d) :=
  (reads_iff (self_clean s h) (.ok d)).symm

/-- C51, failure: the parser reports an error exactly when the grammar gives that error: its kind and its
line. -/
theorem C51_error (s : Str) (h : SelfContained s) (e : Error) :
    fromStr s = .error (.err e) ↔ Reads 1 s (.error e) :=
  (reads_iff (self_clean s h) (.error e)).symm

/-- C51, every source: comments count as their first backslash, if any (C02), and a backslash at the very
end counts for nothing; what remains is self-contained and read by the grammar. -/
theorem C51_any (s : Str) : SelfContained (dropDangling (keepBackslashes s)) ∧
    (∀ d, fromStr s = .ok d ↔ Reads 1 (dropDangling (keepBackslashes s)) (.ok d)) ∧
    (∀ e, fromStr s = .error (.err e) ↔ Reads 1 (dropDangling (keepBackslashes s)) (.error e)) :=
  ⟨clean_iff_self.1 (keep_clean s).1, fun d => (reads_any s (.ok d)).symm, fun e => (reads_any s (.error e)).symm⟩

/-- C51, unambiguity: every self-contained source has exactly one reading. -/
theorem C51_unique (s : Str) (h : SelfContained s) : ∃ o, Reads 1 s o ∧ ∀ o', Reads 1 s o' → o' = o := by
  obtain ⟨o, ho⟩ := reads_total s (self_clean s h) 1
  refine ⟨o, ho, fun o' ho' => toRes_inj ?_⟩
  rw [← (reads_iff (self_clean s h) o).1 ho, (reads_iff (self_clean s h) o').1 ho']

/-- A derivation in the grammar, without the parser: `\foo{a} b` is the command `foo` with the curly
argument `a`, then the text ` b`. -/
example : Reads 1 chars!"\\foo{a} b" (.ok [.mk 1 (.command (.mk chars!"foo"
    [([], .mk [.mk 1 (.text chars!"a")] .curly)])), .mk 1 (.text chars!" b")]) := by
  have ha : Reads 1 chars!"a" (.ok [.mk 1 (.text chars!"a")]) :=
    Reads.text (l := 1) (t := chars!"a") (r := []) (o := .ok []) (by simp) (by simp) (by simp [TextEnds]) .nil
  have hb : Reads 1 chars!" b" (.ok [.mk 1 (.text chars!" b")]) :=
    Reads.text (l := 1) (t := chars!" b") (r := []) (o := .ok []) (by simp) (by simp) (by simp [TextEnds]) .nil
  have hw : Written chars!"{a}" [⟨[], .curly, chars!"a"⟩] :=
    Written.arg (g := []) (b := []) (v := .curly) (a := chars!"a") (w := []) .nil (.inl rfl)
      (by simp [NoDangling]) (by simp [Balanced, ScopeVariant.opening, ScopeVariant.closing]) .none
  exact Reads.command (l := 1) (name := chars!"foo") (w := chars!"{a}") (g := chars!" ") (k := chars!" ")
    (t := chars!"b") (items := [(⟨[], .curly, chars!"a"⟩, .ok [.mk 1 (.text chars!"a")])])
    (o := .ok [.mk 1 (.text chars!" b")])
    ⟨'f', chars!"oo", rfl, by decide, by decide⟩ hw (.plain (by decide) .nil)
    (.inr ⟨'b', [], rfl, by decide, by decide, by decide, by simp⟩)
    (by intro x hx; simp at hx; subst hx; simpa [dropBrackets, ScopeVariant.opening, ScopeVariant.closing] using ha)
    (by simpa using hb)

/-- The hypotheses are met by sources with nested brackets, escapes and errors. -/
example : SelfContained chars!"\\foo{a{b}[c]}\n(\\}\n\\bar}" ∧
    Reads 1 chars!"\\foo{a{b}[c]}\n(\\}\n\\bar}" (.error ⟨1, .unclosedArgument .round⟩) := by
  have h : SelfContained chars!"\\foo{a{b}[c]}\n(\\}\n\\bar}" := ⟨by decide +kernel, by simp [NoDangling]⟩
  exact ⟨h, (C51_error _ h _).1 (by decide +kernel)⟩

/-! ### C52 -/

/-- C52: if `a` reads as `d` and cannot be continued, and `b` starts with a command or a bracket (or is
empty), then `a ++ b` reads as `d` followed by the reading of `b`, numbered on. -/
theorem C52 (a b : Str) (d e : Document) (ha : SelfContained a) (hb : TextEnds b) (hd : fromStr a = .ok d)
    (hc : Complete d) (he : fromStr b = .ok e) :
    fromStr (a ++ b) = .ok (d ++ e.map (Chunk.shift (a.count '\n'))) :=
  fromStr_append ha hb hd hc (.ok e) he

/-- C52, errors: an error in `b` is reported for `a ++ b`, numbered on. -/
theorem C52_error (a b : Str) (d : Document) (e : Error) (ha : SelfContained a) (hb : TextEnds b)
    (hd : fromStr a = .ok d) (hc : Complete d) (he : fromStr b = .error (.err e)) :
    fromStr (a ++ b) = .error (.err ⟨e.line + a.count '\n', e.type⟩) :=
  fromStr_append ha hb hd hc (.error e) he

example : SelfContained chars!"x\n{y\n} z" ∧ TextEnds chars!"\\foo\n{u}" ∧
    fromStr chars!"x\n{y\n} z" = .ok [.mk 1 (.text chars!"x\n"),
      .mk 2 (.scope (.mk [.mk 1 (.text chars!"y\n")] .curly)), .mk 3 (.text chars!" z")] ∧
    Complete [.mk 1 (.text chars!"x\n"), .mk 2 (.scope (.mk [.mk 1 (.text chars!"y\n")] .curly)),
      .mk 3 (.text chars!" z")] ∧
    fromStr chars!"\\foo\n{u}" =
      .ok [.mk 1 (.command (.mk chars!"foo" [(chars!"\n", .mk [.mk 1 (.text chars!"u")] .curly)]))] := by
  refine ⟨⟨by decide +kernel, by simp [NoDangling]⟩, ?_, by decide +kernel, ⟨?_, ?_⟩, by decide +kernel⟩
  · intro c r h; injection h with h _; subst h; simp
  · rintro ⟨init, l, c, r, args, h, _⟩
    have := congrArg List.getLast? h
    simp at this
  · rintro ⟨init, l, t, h, hb, _⟩
    have := congrArg List.getLast? h
    simp at this
    rw [← this.2] at hb
    have := hb 'z' (by simp)
    revert this; decide

/-- `Complete` cannot be dropped: `\foo` and `{u}` read together as one command. -/
theorem C52_needs_complete : ∃ a b d e, SelfContained a ∧ TextEnds b ∧ fromStr a = .ok d ∧
    fromStr b = .ok e ∧ fromStr (a ++ b) ≠ .ok (d ++ e.map (Chunk.shift (a.count '\n'))) := by
  refine ⟨chars!"\\foo", chars!"{u}", [.mk 1 (.command (.mk chars!"foo" []))],
    [.mk 1 (.scope (.mk [.mk 1 (.text chars!"u")] .curly))], ⟨by decide +kernel, by simp [NoDangling]⟩, ?_,
    by decide +kernel, by decide +kernel, by decide +kernel⟩
  intro c r h; injection h with h _; subst h; simp

end LatexAst.Ast1
