import Verif.Proofs.Conversion3
import Verif.Model.Fidelity

/-!
# Stage 2: the conversion computes the declarative one (C53), and is compositional (C54)
-/

namespace LatexAst.Ast2
open LatexAst.Ast1 (Opened Matched NumberedInOrder TextEnds Complete)
open Spec

/-! ### C53 -/

/-- C53, success: the conversion returns `e` exactly when the declarative conversion gives `e`. -/
theorem C53 (d : Ast1.Document) (hn : NumberedInOrder d) (e : Document) :
    tryFrom d = .ok e ↔ Converts d (.ok e) := (converts_iff hn (.ok e)).symm

/-- C53, failure: the conversion reports an error exactly when the declarative conversion gives it: which
problem is found first, with what label, and on which line. -/
theorem C53_error (d : Ast1.Document) (hn : NumberedInOrder d) (e : Error) :
    tryFrom d = .error (.err e) ↔ Converts d (.error e) := (converts_iff hn (.error e)).symm

/-- C53 for parsed documents: they are numbered in order. -/
theorem C53_parsed (s : Str) (d : Ast1.Document) (h : Ast1.fromStr s = .ok d) :
    (∀ e, fromStr s = .ok e ↔ Converts d (.ok e)) ∧ (∀ f, fromStr s = .error (.err f) ↔ Converts d (.error f)) := by
  have hn := Ast1.sane_numbered (Ast1.sane_parsed h)
  simp only [fromStr, h]
  exact ⟨C53 d hn, C53_error d hn⟩

/-- C53, unambiguity: every document converts in exactly one way. -/
theorem C53_unique (d : Ast1.Document) (hn : NumberedInOrder d) : ∃ o, Converts d o ∧ ∀ o', Converts d o' → o' = o := by
  obtain ⟨o, ho⟩ := converts_total d
  exact ⟨o, ho, fun o' ho' => toRes_inj ((ho'.sound hn).symm.trans (ho.sound hn))⟩

/-- A derivation without the code: `\begin{a}x\end{a}`. -/
example : Converts [.mk 1 (.command (.mk chars!"begin" [([], .mk [.mk 1 (.text chars!"a")] .curly)])),
      .mk 1 (.text chars!"x"), .mk 1 (.command (.mk chars!"end" [([], .mk [.mk 1 (.text chars!"a")] .curly)]))]
    (.ok [.mk 1 (.environment (.mk chars!"a" [] [.mk 1 (.text chars!"x")] [] []))]) :=
  Converts.environment (l := 1) (p := []) (lab := [.mk 1 (.text chars!"a")]) (body := [.mk 1 (.text chars!"x")])
    (l' := 1) (pe := []) (cs := []) (i := .ok [.mk 1 (.text chars!"x")]) (o := .ok []) (items := [])
    (.other (by rintro ⟨_, _, h, _⟩; cases h) .nil) (by simp) (.text .nil) .nil

/-- A derivation of an error, without the code: `\begin{a}x\end`. -/
example : Converts [.mk 1 (.command (.mk chars!"begin" [([], .mk [.mk 1 (.text chars!"a")] .curly)])),
      .mk 1 (.text chars!"x"), .mk 2 (.command (.mk chars!"end" []))]
    (.error ⟨2, .noEnvironmentLabel⟩) :=
  Converts.badInside (body := [.mk 1 (.text chars!"x")]) (cs := []) (.other .nil (by rintro ⟨_, _, h, _⟩; cases h))
    (.noLabel rfl (.inr rfl) (by simp))

/-- The hypotheses are met by a document with nested environments and arguments. -/
example : ∃ d, Ast1.fromStr Fidelity.basicSrc2 = .ok d ∧ NumberedInOrder d ∧
    Converts d (.ok Fidelity.basicAst2) := by
  have h : fromStr Fidelity.basicSrc2 = .ok Fidelity.basicAst2 := by decide +kernel
  obtain ⟨d, hd, _⟩ := fromStr_parts h
  exact ⟨d, hd, Ast1.sane_numbered (Ast1.sane_parsed hd), ((C53_parsed _ d hd).1 _).1 h⟩

/-! ### C54 -/

/-- C54: a document that converts, followed by any other: the results follow each other, and only the
second part can fail. -/
theorem C54 (a b : Ast1.Document) (x : Document) (h : tryFrom a = .ok x) : tryFrom (a ++ b) =
    match tryFrom b with
    | .ok y => .ok (x ++ y)
    | .error f => .error f := tryFrom_append h b

/-- C54, further down: moving a document that converts down by `k` lines moves the result by `k` lines. -/
theorem C54_shift (d : Ast1.Document) (hn : NumberedInOrder d) (e : Document) (h : tryFrom d = .ok e) (k : Nat) :
    tryFrom (d.map (Ast1.Chunk.shift k)) = .ok (e.map (Chunk.shift k)) := tryFrom_shift k hn h

/-- C54 for sources (C52): parsing `a ++ b` to stage 2. -/
theorem C54_source (a b : Str) (x y : Document) (d : Ast1.Document) (ha : SelfContained a) (hb : TextEnds b)
    (hd : Ast1.fromStr a = .ok d) (hc : Complete d) (hx : fromStr a = .ok x) (hy : fromStr b = .ok y) :
    fromStr (a ++ b) = .ok (x ++ y.map (Chunk.shift (a.count '\n'))) := by
  obtain ⟨d', hd', hx'⟩ := fromStr_parts hx
  obtain ⟨e, he, hy'⟩ := fromStr_parts hy
  rw [hd] at hd'
  cases hd'
  have h1 := Ast1.fromStr_append ha hb hd hc (.ok e) he
  simp only [Ast1.Outcome.shift, Ast1.Outcome.before, Ast1.Outcome.toRes] at h1
  have h2 := tryFrom_shift (a.count '\n') (Ast1.sane_numbered (Ast1.sane_parsed he)) hy'
  unfold fromStr
  rw [h1]
  simp only
  rw [tryFrom_append hx', h2]

example : SelfContained chars!"\\begin{a}\nx\\end{a}\nand {y}" ∧ TextEnds chars!"\\begin{b}\nz\\end{b}" ∧
    fromStr chars!"\\begin{b}\nz\\end{b}" = .ok [.mk 1 (.environment (.mk chars!"b" [] [.mk 1 (.text chars!"\nz")] [] []))] ∧
    fromStr chars!"\\begin{a}\nx\\end{a}\nand {y}" = .ok [.mk 1 (.environment (.mk chars!"a" [] [.mk 1 (.text chars!"\nx")] [] [])),
      .mk 2 (.text chars!"\nand "), .mk 3 (.scope (.mk [.mk 1 (.text chars!"y")] .curly))] := by
  refine ⟨⟨by decide +kernel, by simp [NoDangling]⟩, ?_, by decide +kernel, by decide +kernel⟩
  intro c r h; injection h with h _; subst h; simp

/-- An error in the second part is not always moved down with it: errors inside arguments keep their line
(so there is no error version of `C54_shift`). -/
theorem C54_error_line : ∃ (d : Ast1.Document) (e : Error), NumberedInOrder d ∧ tryFrom d = .error (.err e) ∧
    tryFrom (d.map (Ast1.Chunk.shift 7)) = .error (.err e) := by
  have h : Ast1.fromStr chars!"\\foo[\\begin{a}]" = .ok [.mk 1 (.command (.mk chars!"foo"
      [([], .mk [.mk 1 (.command (.mk chars!"begin" [([], .mk [.mk 1 (.text chars!"a")] .curly)]))] .square)]))] := by
    decide +kernel
  exact ⟨_, ⟨1, .unclosedEnvironment chars!"a"⟩, Ast1.sane_numbered (Ast1.sane_parsed h), by decide +kernel,
    by decide +kernel⟩

end LatexAst.Ast2
