import Verif.Proofs.Renum1
import Verif.Model.Fidelity

/-!
# Stage 1: printing, then parsing (C03, C10, C14, C19)
-/

namespace LatexAst.Ast1
open Spec

/-! ### C03 -/

/-- C03: every canonical document is read back from its printed form, exactly. -/
theorem C03 (d : Document) (h : Canonical d) : fromStr (displayChunks d) = .ok d := roundtrip d h

/-- C03: hence printing is injective on canonical documents. -/
theorem C03_injective (d e : Document) (hd : Canonical d) (he : Canonical e)
    (h : displayChunks d = displayChunks e) : d = e := by
  have h1 := C03 d hd
  rw [h, C03 e he] at h1
  injection h1 with h1
  exact h1.symm

/-! ### C14 -/

/-- C14, and more: the printed form of a parsed document is read back as the same document. Missing:
documents with a free scope inside a curly argument (they print as nested braces, which the parser
drops) or with an unmatched `}` in a free scope that was written with other brackets; the property
fails there, see `C14_false`. -/
theorem C14_partial (s : Str) (d : Document) (h : fromStr s = .ok d)
    (h1 : NoScopeInCurlyArgument d) (h2 : NoCloserInScope d) : fromStr (displayChunks d) = .ok d :=
  roundtrip d (canonical_of_parsed h h1 h2)

/-- Parsed documents under the hypotheses of `C14_partial` are canonical: `C03` covers them. -/
theorem C03_covers_parsed (s : Str) (d : Document) (h : fromStr s = .ok d)
    (h1 : NoScopeInCurlyArgument d) (h2 : NoCloserInScope d) : Canonical d :=
  canonical_of_parsed h h1 h2

/-- C14 is false of the code: `\foo{[b]}` prints as `\foo{{b}}`, which prints as `\foo{b}`; and
`(})` prints as `{}}`, which is read differently (a `)` for `}` in `[\a(})]` gives text that is
rejected). -/
theorem C14_false :
    (∃ d d', fromStr chars!"\\foo{[b]}" = .ok d ∧ fromStr (displayChunks d) = .ok d' ∧
      displayChunks d' ≠ displayChunks d) ∧
    (∃ d, fromStr chars!"[\\a(})]" = .ok d ∧ ∃ e, fromStr (displayChunks d) = .error (.err e)) := by
  refine ⟨⟨[.mk 1 (.command (.mk chars!"foo"
      [([], .mk [.mk 1 (.scope (.mk [.mk 1 (.text chars!"b")] .curly))] .curly)]))],
    [.mk 1 (.command (.mk chars!"foo" [([], .mk [.mk 1 (.text chars!"b")] .curly)]))],
    by decide +kernel, by decide +kernel, by decide +kernel⟩,
    ⟨[.mk 1 (.scope (.mk [.mk 1 (.command (.mk chars!"a" [([], .mk [.mk 1 (.text chars!"}")] .round)]))]
      .curly))], by decide +kernel, ⟨1, .unclosedArgument .round⟩, by decide +kernel⟩⟩

/-- A way to check the hypotheses of `C14_partial` on a concrete document. -/
theorem hypotheses_iff (d : Document) : (NoScopeInCurlyArgument d ∧ NoCloserInScope d) ↔
    AllChunks (fun v => match v with
      | .text _ => True
      | .scope (.mk inner _) => AllChunks (NoCl .curly) inner
      | .command (.mk _ args) => ∀ x ∈ args, match x with
        | (_, .mk inner sv) => sv = .curly → AllChunks (fun v => match v with | .scope _ => False | _ => True) inner) d := by
  rw [allChunks_iff]
  constructor
  · rintro ⟨h1, h2⟩ v hv
    cases v with
    | text => trivial
    | scope s => obtain ⟨i, sv⟩ := s; exact allNoCl (h2 i sv hv)
    | command c =>
      obtain ⟨l, a⟩ := c
      rintro ⟨p, ⟨i, sv⟩⟩ hm rfl
      rw [allChunks_iff]
      intro w hw
      cases w with
      | scope sc => exact h1 l a p i hv hm sc hw
      | text => trivial
      | command => trivial
  · intro h
    refine ⟨fun l a p i hv hm sc hw => ?_, fun i sv hv t ht => ?_⟩
    · exact (allChunks_iff _).1 (h _ hv _ hm rfl) _ hw
    · exact (allChunks_iff _).1 (h _ hv) _ ht

example : fromStr Fidelity.basicSrc = .ok Fidelity.basicAst ∧
    NoScopeInCurlyArgument Fidelity.basicAst ∧ NoCloserInScope Fidelity.basicAst := by
  refine ⟨by decide +kernel, ?_⟩
  rw [hypotheses_iff]
  simp [Fidelity.basicAst, AllChunks, Chunk.All, ChunkVariant.All, Command.All, Scope.All, AllArgs, NoCl,
    ScopeVariant.closing]
  rintro a b (⟨_, rfl⟩ | ⟨_, rfl⟩) <;> simp

/-- A document with nested scopes and arguments meeting the hypothesis of `C03`. -/
example : Canonical Fidelity.basicAst := by
  refine canonical_of_parsed (s := Fidelity.basicSrc) (by decide +kernel) ?_ ?_ <;>
  · have : NoScopeInCurlyArgument Fidelity.basicAst ∧ NoCloserInScope Fidelity.basicAst := by
      rw [hypotheses_iff]
      simp [Fidelity.basicAst, AllChunks, Chunk.All, ChunkVariant.All, Command.All, Scope.All, AllArgs, NoCl,
        ScopeVariant.closing]
      rintro a b (⟨_, rfl⟩ | ⟨_, rfl⟩) <;> simp
    first | exact this.1 | exact this.2

/-! ### C10 -/

/-- C10 for arguments: the argument of a letter command has the kind of the brackets it is written with,
and contains what is between them, less the brackets of that kind. -/
theorem C10_argument (v : ScopeVariant) (label a : Str) (inner : List Chunk) (hl : LetterName label)
    (ha : SelfContained a) (hb : Balanced v 0 a) (h : fromStr (dropBrackets v a) = .ok inner) :
    fromStr ('\\' :: (label ++ v.opening :: (a ++ [v.closing]))) =
      .ok [.mk 1 (.command (.mk label [([], .mk inner v)]))] := arg_parse hl ha hb h

/-- C10 for free scopes: the scope contains what is between the brackets, but its kind is always curly;
so the property holds for curly brackets only (`C10_false`). -/
theorem C10_scope_partial (v : ScopeVariant) (a : Str) (inner : List Chunk)
    (ha : SelfContained a) (hb : Balanced v 0 a) (h : fromStr a = .ok inner) :
    fromStr (v.opening :: (a ++ [v.closing])) = .ok [.mk 1 (.scope (.mk inner .curly))] :=
  scope_parse ha hb h

/-- C10 is false of the code: round brackets are recorded as curly. -/
theorem C10_false : fromStr chars!"(a)" = .ok [.mk 1 (.scope (.mk [.mk 1 (.text chars!"a")] .curly))] := by
  decide +kernel

example : LetterName chars!"foo" ∧ SelfContained chars!"a[b]\\]{c}" ∧ Balanced .square 0 chars!"a[b]\\]{c}" ∧
    fromStr (dropBrackets .square chars!"a[b]\\]{c}") = .ok [.mk 1 (.text chars!"ab"),
      .mk 1 (.command (.mk chars!"]" [])), .mk 1 (.scope (.mk [.mk 1 (.text chars!"c")] .curly))] := by
  refine ⟨⟨'f', chars!"oo", rfl, by decide, by decide⟩, ⟨by decide +kernel, by simp [NoDangling]⟩, ?_,
    by decide +kernel⟩
  simp [Balanced, ScopeVariant.opening, ScopeVariant.closing]

/-! ### C19 -/

/-- C19 for the documents that can be printed unambiguously (any line numbers). Missing: valid documents
that print ambiguously, such as two adjacent texts after a command; the property fails there, see
`C19_false`. -/
theorem C19_partial (d : Document) (h : ∀ lv, Level d lv → Printable lv) :
    ∃ d', fromStr (displayChunks d) = .ok d' ∧ displayChunks d' = displayChunks d := by
  have := roundtrip _ (canonical_renum h)
  rw [display_renumSeq] at this
  exact ⟨_, this, display_renumSeq _ _ d⟩

/-- C19 is false of the code: a valid document whose printed form is rejected, and one whose printed
form reads back as something that prints differently. -/
theorem C19_false :
    (∃ d, Document.validate d = .ok () ∧ ∃ e, fromStr (displayChunks d) = .error (.err e)) ∧
    (∃ d d', Document.validate d = .ok () ∧ fromStr (displayChunks d) = .ok d' ∧
      displayChunks d' ≠ displayChunks d) := by
  refine ⟨⟨[.mk 1 (.command (.mk chars!"a" [])), .mk 1 (.command (.mk chars!"(" []))],
    by decide +kernel, ⟨1, .unclosedArgument .round⟩, by decide +kernel⟩, ?_⟩
  · exact ⟨[.mk 1 (.command (.mk chars!"foo" [([], .mk [.mk 1 (.scope (.mk [] .curly))] .curly)]))],
      [.mk 1 (.command (.mk chars!"foo" [([], .mk [] .curly)]))], by decide +kernel, by decide +kernel,
      by decide +kernel⟩

/-- Wrong line numbers do not matter. -/
example : ∀ lv, Level [.mk 7 (.command (.mk chars!"foo" [])), .mk 0 (.text chars!" x")] lv → Printable lv := by
  intro lv hl
  have : lv = [.mk 7 (.command (.mk chars!"foo" [])), .mk 0 (.text chars!" x")] := by
    induction hl with
    | top => rfl
    | scope _ hm ih => subst ih; simp at hm
    | arg _ hm hm' ih => subst ih; simp at hm; rw [hm.2.2] at hm'; cases hm'
  subst this
  have hl : LetterName chars!"foo" := ⟨'f', chars!"oo", rfl, by decide, by decide⟩
  refine ⟨⟨.inl hl, ?_, trivial⟩, ?_⟩
  · simp only [After.next, if_pos hl, if_true]
    exact ⟨' ', ['x'], rfl, by decide⟩
  · intro l v hm
    simp at hm
    rcases hm with ⟨_, rfl⟩ | ⟨_, rfl⟩
    · exact .inl ⟨hl, by simp⟩
    · exact ⟨by simp, by decide⟩

end LatexAst.Ast1
