import Verif.Proofs.Trouble
import Verif.Props.Total3
import Verif.Props.DocumentRule
import Verif.Model.Eq3
import Verif.Model.Eq2

/-!
# C42, C46: exactly which sources the stage-3 parser rejects, and with which error; exactly which make it panic
-/

namespace LatexAst.Ast3

/-- C42, exactly: the stage-3 parser panics if and only if the source is read by the earlier stages, the `\documentclass`
commands are in order, and the first problem in the parts of the document (its `document` environments, its preamble,
what is left) is a dollar formula whose lines cannot be counted: one that is closed on a line that is more than one line
below the number of some chunk in it. -/
theorem C42_exact_partial (s : Str) : fromStr s = .error .panic ↔
    ∃ e part fr b rest, Ast2.fromStr s = .ok e ∧ Attempted e part ∧ First part fr ∧ Passes 0 fr b rest ∧ Overflows rest := by
  unfold fromStr
  rcases Ast2.C28 s with ⟨e, he⟩ | ⟨x, hx⟩
  · simp only [he, Except.ok.injEq]
    rw [show (tryFrom e = .error .panic ↔ Reads e (.error .panic)) from reads_iff, reads_error]
    constructor
    · rintro (⟨x, h, _⟩ | ⟨part, h1, h2⟩)
      · cases h
      · obtain ⟨fr, b, rest, h3, h4, h5⟩ := yields_panic_iff.1 h2
        exact ⟨e, part, fr, b, rest, rfl, h1, h3, h4, h5⟩
    · rintro ⟨_, part, fr, b, rest, rfl, h1, h3, h4, h5⟩
      exact .inr ⟨part, h1, yields_panic_iff.2 ⟨fr, b, rest, h3, h4, h5⟩⟩
  · simp [hx]

/-- C46, exactly: the stage-3 parser reports `x` if and only if an earlier stage does, or it is about a `\documentclass`
command, or it is the first problem in the parts of the document: maths that is not closed, or `\)` or `\]` outside
maths. The line reported is the one the chunk has in the sequence in which it is (`Stuck`). -/
theorem C46_exact_partial (s : Str) (x : Error) : fromStr s = .error (.err x) ↔
    Ast2.fromStr s = .error (.err x) ∨ ∃ e, Ast2.fromStr s = .ok e ∧ (BadClass e x ∨
      ∃ part fr b rest, Attempted e part ∧ First part fr ∧ Passes 0 fr b rest ∧ Stuck b rest x) := by
  unfold fromStr
  rcases Ast2.C28 s with ⟨e, he⟩ | ⟨y, hy⟩
  · simp only [he, Except.ok.injEq, reduceCtorEq, false_or]
    rw [show (tryFrom e = .error (.err x) ↔ Reads e (.error (.err x))) from reads_iff, reads_error]
    constructor
    · rintro (⟨x, h, h'⟩ | ⟨part, h1, h2⟩)
      · cases h; exact ⟨e, rfl, .inl h'⟩
      · obtain ⟨fr, b, rest, h3, h4, h5⟩ := yields_err_iff.1 h2
        exact ⟨e, rfl, .inr ⟨part, fr, b, rest, h1, h3, h4, h5⟩⟩
    · rintro ⟨_, rfl, h | ⟨part, fr, b, rest, h1, h3, h4, h5⟩⟩
      · exact .inl ⟨x, rfl, h⟩
      · exact .inr ⟨part, h1, yields_err_iff.2 ⟨fr, b, rest, h3, h4, h5⟩⟩
  · simp [hy]

/-- C42 and C46 together: the stage-3 parser returns a document if and only if the earlier stages do, and there is no
problem with the `\documentclass` commands or in the parts of the document. -/
theorem C46_accepts_partial (s : Str) : (∃ d, fromStr s = .ok d) ↔ ∃ e, Ast2.fromStr s = .ok e ∧ (∀ x, ¬ BadClass e x) ∧
    ∀ part fr b rest, Attempted e part → First part fr → Passes 0 fr b rest → ¬ Overflows rest ∧ ∀ x, ¬ Stuck b rest x := by
  constructor
  · rintro ⟨d, hd⟩
    rcases Ast2.C28 s with ⟨e, he⟩ | ⟨y, hy⟩
    · refine ⟨e, he, ?_, ?_⟩
      · intro x hx
        have := (C46_exact_partial s x).2 (.inr ⟨e, he, .inl hx⟩)
        simp [hd] at this
      · intro part fr b rest h1 h2 h3
        refine ⟨fun h => ?_, fun x h => ?_⟩
        · have := (C42_exact_partial s).2 ⟨e, part, fr, b, rest, he, h1, h2, h3, h⟩
          simp [hd] at this
        · have := (C46_exact_partial s x).2 (.inr ⟨e, he, .inr ⟨part, fr, b, rest, h1, h2, h3, h⟩⟩)
          simp [hd] at this
    · simp [fromStr, hy] at hd
  · rintro ⟨e, he, h1, h2⟩
    rcases C42_partial s with h | ⟨x, h⟩ | ⟨h, _⟩
    · exact h
    · rcases (C46_exact_partial s x).1 h with h | ⟨e', he', h | ⟨part, fr, b, rest, h3, h4, h5, h6⟩⟩
      · simp [he] at h
      · cases (he.symm.trans he'); exact absurd h (h1 x)
      · cases (he.symm.trans he'); exact absurd h6 ((h2 part fr b rest h3 h4 h5).2 x)
    · obtain ⟨e', part, fr, b, rest, he', h3, h4, h5, h6⟩ := (C42_exact_partial s).1 h
      cases (he.symm.trans he'); exact absurd h6 (h2 part fr b rest h3 h4 h5).1

/-- C46: the error that is reported is the only one: it does not depend on how its place is described. -/
theorem C46_unique_partial (part : List Ast2.Chunk) {fr fr' b b' rest rest' x x'} (h1 : First part fr) (h2 : Passes 0 fr b rest)
    (h3 : Stuck b rest x) (h1' : First part fr') (h2' : Passes 0 fr' b' rest') (h3' : Stuck b' rest' x') : x = x' := by
  have a := yields_err_iff.2 ⟨fr, b, rest, h1, h2, h3⟩
  have b := yields_err_iff.2 ⟨fr', b', rest', h1', h2', h3'⟩
  have := yields_unique a b
  simpa using this

/-! ### Examples -/

theorem classesOk_of_none {cs : List Ast2.Chunk} (h : ∀ l args, .mk l (.command (.mk chars!"documentclass" args)) ∉ cs) :
    ClassesOk cs := by
  intro a l args b e
  exact absurd (e ▸ by simp) (h l args)

/-- The second formula of `$a$ {\[x}` is never closed: the problem is nested in the scope after the first formula, and
it is on line 1. -/
theorem trouble_example : ∃ fr b rest, First [.mk 1 (.text chars!"$a$ "), .mk 1 (.scope (.mk [.mk 1 (.command (.mk chars!"[" [])),
      .mk 1 (.text chars!"x")] .curly))] fr ∧ Passes 0 fr b rest ∧ Stuck b rest ⟨1, .unclosedMaths⟩ := by
  refine ⟨[.mk 1 (.command (.mk chars!"[" [])), .mk 1 (.text chars!"x")], 0, [.mk 1 (.command (.mk chars!"[" [])), .mk 1 (.text chars!"x")],
    First.nested (b := 0) ?_ (Enters.scope (l := 1) (sv := .curly) (cs := [])) .here, .refl, .unclosed (k := .outline) (.done (i := [.mk 1 (.text chars!"x")]) ?_)⟩
  · refine Passes.formula (l := 1) (q := []) (r := chars!"a$ ") (p := ⟨1, chars!"a", chars!" ", _⟩) (by simp) (.inline (.here (x := chars!"a") (by simp)) (.inr (by simp))) ?_ ?_ ?_
    · right; simp [textIf2, Ast2.Chunk.lineNo]
    · refine ⟨[.mk 1 (.text chars!"a")], ?_⟩
      simp only [textIf2, List.nil_append, reduceCtorEq, if_false, List.map_cons, List.map_nil, countFrom]
      exact .text (by simp) .nil
    · exact .text (by simp) .refl
  · exact .other (by intro args; simp [Ast2.Chunk.variant]) .nil

/-- Such a document is what the earlier stages read, and the parser reports the problem. -/
example : Ast2.fromStr chars!"$a$ {\\[x}" = .ok [.mk 1 (.text chars!"$a$ "), .mk 1 (.scope (.mk [.mk 1 (.command (.mk chars!"[" [])),
      .mk 1 (.text chars!"x")] .curly))] ∧ fromStr chars!"$a$ {\\[x}" = .error (.err ⟨1, .unclosedMaths⟩) := by
  constructor <;> decide +kernel

/-- The formula of `a$\foo{b\n\nc}x$` is closed on line 3, two lines below the command in it. -/
theorem overflow_example : ∃ fr b rest, First [.mk 1 (.text chars!"a$"), .mk 1 (.command (.mk chars!"foo" [([], .mk [.mk 1 (.text chars!"b\n\nc")] .curly)])),
      .mk 3 (.text chars!"x$")] fr ∧ Passes 0 fr b rest ∧ Overflows rest := by
  refine ⟨_, 0, _, .here, .refl, 1, chars!"a", [], _, _, _, _, _, rfl, by simp,
    .inline (.later (x := []) (ms := [.mk 1 (.command (.mk chars!"foo" [([], .mk [.mk 1 (.text chars!"b\n\nc")] .curly)]))]) (by simp) ?_
      (.here (x := chars!"x") (by simp))) (.inl (by simp)), ?_⟩
  · intro m hm t
    simp only [List.mem_singleton] at hm
    subst hm
    simp [Ast2.Chunk.variant]
  · rintro (h | ⟨_, h⟩)
    · simp at h
    · have := h (.mk 1 (.command (.mk chars!"foo" [([], .mk [.mk 1 (.text chars!"b\n\nc")] .curly)]))) (by simp)
      simp [Ast2.Chunk.lineNo] at this

example : Ast2.fromStr chars!"a$\\foo{b\n\nc}x$" = .ok [.mk 1 (.text chars!"a$"), .mk 1 (.command (.mk chars!"foo" [([], .mk [.mk 1 (.text chars!"b\n\nc")] .curly)])),
      .mk 3 (.text chars!"x$")] ∧ fromStr chars!"a$\\foo{b\n\nc}x$" = .error .panic := by
  constructor <;> decide +kernel

end LatexAst.Ast3
