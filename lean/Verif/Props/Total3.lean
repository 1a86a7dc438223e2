import Verif.Proofs.Errors3

/-!
# C40, C41, C42, C46: converting back, totality and error lines at stage 3
-/

namespace LatexAst.Ast3
open Spec

/-! ### C40 -/

/-- C40: chunks none of whose maths blocks is on line 0 convert back to stage 2, and print the same. -/
theorem C40 (cs : List Chunk) (h : MathsPositive cs) :
    ∃ out, intoChunks cs = .ok out ∧ Ast2.displayChunks out = displayChunks cs := by
  rcases into_spec cs with ⟨_, h⟩ | ⟨h', _⟩
  · exact h
  · exact absurd h h'

/-- C40 for one chunk, `chunk.into_chunks()`. -/
theorem C40_chunk (c : Chunk) (h : MathsPositive [c]) :
    ∃ out, intoVariant c.lineNo c.variant = .ok out ∧ Ast2.displayChunks out = c.display := by
  obtain ⟨out, h1, h2⟩ := C40 [c] h
  obtain ⟨l, v⟩ := c
  simp only [intoChunks] at h1
  cases hv : intoVariant l v with
  | error f => rw [hv] at h1; cases h1
  | ok xs =>
    rw [hv] at h1
    simp at h1; subst h1
    exact ⟨xs, hv, by simpa [displayChunks] using h2⟩

/-- C40, the condition is exact: with a maths block on line 0 the conversion panics. -/
theorem C40_panics (cs : List Chunk) (h : ¬ MathsPositive cs) : intoChunks cs = .error .panic := by
  rcases into_spec cs with ⟨h', _⟩ | ⟨_, h'⟩
  · exact absurd h' h
  · exact h'

/-- A dollar formula with a command in a scope, and a bracket formula. -/
def backExample : List Chunk :=
  [.mk 1 (.scope (.mk [.mk 1 (.text chars!"a\n"), .mk 2 (.mathsBlock (.mk .dollars .inline [.mk 1 (.command (.mk chars!"b" []))]))] .curly)),
   .mk 2 (.paragraphBreak chars!"\n\n"), .mk 4 (.mathsBlock (.mk .brackets .outline [.mk 1 (.text chars!"x")]))]

theorem backExample_positive : MathsPositive backExample := by
  have h1 : MathsPositive [.mk 1 (.text chars!"a\n")] := positive_texts (by simp [Chunk.variant])
  have h2 : MathsPositive [.mk 2 (.paragraphBreak chars!"\n\n")] := positive_texts (by simp [Chunk.variant])
  have h3 : MathsPositive [.mk 1 (.text chars!"x")] := positive_texts (by simp [Chunk.variant])
  have h4 : MathsPositive [.mk 1 (.command (.mk chars!"b" []))] := positive_command (by simp)
  exact positive_cons.2 ⟨positive_scope_iff.2 (positive_cons.2 ⟨h1, positive_maths (by omega) h4⟩),
    positive_cons.2 ⟨h2, positive_maths (by omega) h3⟩⟩

example : displayChunks backExample = chars!"{a\n$\\b$}\n\n\\[x\\]" := by decide +kernel
example : intoChunks backExample = .ok
    [.mk 1 (.scope (.mk [.mk 1 (.text chars!"a\n"), .mk 2 (.text chars!"$"), .mk 2 (.command (.mk chars!"b" [])), .mk 2 (.text chars!"$")] .curly)),
     .mk 2 (.text chars!"\n\n"), .mk 4 (.command (.mk chars!"[" [])), .mk 4 (.text chars!"x"), .mk 4 (.command (.mk chars!"]" []))] := by decide +kernel

/-! ### C41 -/

/-- C41, when the conversion returns: the result prints as the document is written; it prints exactly as the
stage-3 document if the strings after `\begin` and `\end` agree. -/
theorem C41_partial (f : Document) (e : Ast2.Document) (h : toAst2 f = .ok e) :
    Ast2.displayChunks e = f.written ∧ (f.bodyBeginPrec = f.bodyEndPrec → Ast2.displayChunks e = f.display) := by
  have : Ast2.displayChunks e = f.written := by
    rcases toAst2_spec f with ⟨_, _, e', h', h2⟩ | ⟨_, h'⟩
    · rw [h] at h'; cases h'; exact h2
    · rw [h] at h'; cases h'
  refine ⟨this, ?_⟩
  intro hp
  rw [this, display_document, Document.written, hp]

/-- C41, when the conversion returns: if there is a line break before the trailing part, and no maths block is on
line 0; otherwise it panics. -/
theorem C41_returns_partial (f : Document) :
    (f.MathsPositive ∧ '\n' ∈ ({ f with trailing := [] } : Document).written → ∃ e, toAst2 f = .ok e) ∧
    (¬ (f.MathsPositive ∧ '\n' ∈ ({ f with trailing := [] } : Document).written) → toAst2 f = .error .panic) := by
  rcases toAst2_spec f with ⟨h1, h2, e, h3, _⟩ | ⟨h1, h2⟩
  · exact ⟨fun _ => ⟨e, h3⟩, fun h => absurd ⟨h1, h2⟩ h⟩
  · exact ⟨fun h => absurd h h1, fun _ => h2⟩

/-- The maths blocks of a parsed document whose texts close their dollars are on positive lines. -/
theorem positive_document {s e f} (h : Ast2.fromStr s = .ok e) (hf : fromStr s = .ok f) (hd : DollarsClosed e) : f.MathsPositive := by
  unfold fromStr at hf
  rw [h] at hf
  have := post_tryFrom (converting_closed fun _ => True) ⟨hd, Ast2.positive_parsed h, fun _ _ _ _ => trivial⟩
  simp only at hf
  rw [hf] at this
  exact this

/-- C41 for parsed documents whose texts close the dollar formulas they open, and in which a line ends before the
end of the document environment. -/
theorem C41_parsed_partial (s : Str) (e : Ast2.Document) (f : Document) (h : Ast2.fromStr s = .ok e) (hf : fromStr s = .ok f)
    (hd : DollarsClosed e) (hn : '\n' ∈ ({ f with trailing := [] } : Document).written) :
    ∃ e', toAst2 f = .ok e' ∧ Ast2.displayChunks e' = f.written := by
  obtain ⟨e', h'⟩ := (C41_returns_partial f).1 ⟨positive_document h hf hd, hn⟩
  exact ⟨e', h', (C41_partial f e' h').1⟩

/-- C41 is false of the code: a document on one line, and a bracket formula in a dollar formula, make the
conversion panic; and `\end` is printed with the string that follows `\begin`. -/
theorem C41_false :
    ((fromStr chars!"\\begin{document}x\\end{document}").isOk = true ∧
      (fromStr chars!"\\begin{document}x\\end{document}").bind toAst2 = .error .panic) ∧
    ((fromStr chars!"$\\(\\)\\foo{a\nb}x$").isOk = true ∧ (fromStr chars!"$\\(\\)\\foo{a\nb}x$").bind toAst2 = .error .panic) ∧
    ((fromStr chars!"\\begin {document}\nx\\end{document}").map Document.display = .ok chars!"\\begin {document}\nx\\end {document}" ∧
      ((fromStr chars!"\\begin {document}\nx\\end{document}").bind toAst2).map Ast2.displayChunks =
        .ok chars!"\\begin {document}\nx\\end{document}") := by
  refine ⟨⟨by decide +kernel, by decide +kernel⟩, ⟨by decide +kernel, by decide +kernel⟩, by decide +kernel, by decide +kernel⟩

/-- A document with maths that meets the hypotheses of `C41_parsed_partial`. -/
example : ((fromStr chars!"a\n\\begin{document}$x$ \\(y\\)\\end{document}b").bind toAst2).map Ast2.displayChunks =
    .ok chars!"a\n\\begin{document}$x$ \\(y\\)\\end{document}b" := by decide +kernel

/-! ### C42 -/

/-- C42: the stage-3 parser terminates on every string; it panics only if some sequence of the stage-2 document
contains a dollar formula that goes on for too long. -/
theorem C42_partial (s : Str) : (∃ f, fromStr s = .ok f) ∨ (∃ x, fromStr s = .error (.err x)) ∨
    (fromStr s = .error .panic ∧ ∃ e lv, Ast2.fromStr s = .ok e ∧ Ast2.Level e lv ∧ LongFormula lv) := by
  unfold fromStr
  rcases Ast2.C28 s with ⟨e, he⟩ | ⟨x, hx⟩
  · simp only [he]
    by_cases hn : NearAll e
    · have := post_tryFrom converting_near hn
      have h2 := fail_tryFrom spec_trivial (everywhere_trivial e)
      cases hr : tryFrom e with
      | ok f => exact .inl ⟨f, rfl⟩
      | error f =>
        rw [hr] at this
        cases f with
        | err x => exact .inr (.inl ⟨x, rfl⟩)
        | panic =>
          rcases this with h | ⟨_, _, _, h, _⟩
          · exact absurd rfl h
          · cases h
        | fuel => exact absurd hr (tryFrom_no_fuel e)
    · cases hr : tryFrom e with
      | ok f => exact .inl ⟨f, rfl⟩
      | error f =>
        cases f with
        | err x => exact .inr (.inl ⟨x, rfl⟩)
        | panic =>
          refine .inr (.inr ⟨rfl, e, ?_⟩)
          unfold NearAll at hn
          simp only [Classical.not_forall] at hn
          obtain ⟨lv, hl, hn⟩ := hn
          refine ⟨lv, rfl, hl, ?_⟩
          refine Classical.byContradiction fun hc => hn ⟨?_, hc⟩
          intro l t hm _
          exact (Ast2.level_lines he hl hm).1
        | fuel => exact absurd hr (tryFrom_no_fuel e)
  · simp only [hx]; exact .inr (.inl ⟨x, rfl⟩)

/-- C42 for sources in which every text closes the dollar formulas it opens. -/
theorem C42_closed_partial (s : Str) (h : ∀ e, Ast2.fromStr s = .ok e → DollarsClosed e) :
    (∃ f, fromStr s = .ok f) ∨ ∃ x, fromStr s = .error (.err x) := by
  rcases C42_partial s with hr | hr | ⟨_, e, lv, he, hl, l1, t1, c, l2, t2, h1, h2, _⟩
  · exact .inl hr
  · exact .inr hr
  · exact absurd h2 (h e he t1 (Ast2.level_within hl (h1.subset (.head _))))

/-- C42 for sources without dollars. -/
theorem C42_no_dollar_partial (s : Str) (h : '$' ∉ s) : (∃ f, fromStr s = .ok f) ∨ ∃ x, fromStr s = .error (.err x) := by
  rcases C42_partial s with hr | hr | ⟨_, e, lv, he, hl, l1, t1, c, l2, t2, h1, h2, _⟩
  · exact .inl hr
  · exact .inr hr
  · exact absurd (Ast2.dollar_parsed he hl (h1.subset (.head _)) (openDollar_dollar h2)) h

/-- C42 for sources of at most two lines. -/
theorem C42_short_partial (s : Str) (h : lineCount s ≤ 2) : (∃ f, fromStr s = .ok f) ∨ ∃ x, fromStr s = .error (.err x) := by
  rcases C42_partial s with hr | hr | ⟨_, e, lv, he, hl, l1, t1, c, l2, t2, h1, h2, _, _, h3⟩
  · exact .inl hr
  · exact .inr hr
  · have := (Ast2.level_lines he hl (c := .mk l2 (.text t2)) (h1.subset (by simp))).2
    have := (Ast2.level_lines he hl (c := c) (h1.subset (by simp))).1
    simp only [Ast2.Chunk.lineNo] at *
    omega

/-- C42 is false of the code: a formula that contains a command of more than two lines makes the parser panic. -/
theorem C42_false : fromStr chars!"$\\foo{a\n\nb}x$" = .error .panic := by decide +kernel

/-! ### C46 -/

/-- C46: an error of stage 3 is at most at the last line of the source (an error of the earlier stages, at most
as many lines below as there are opening brackets); it is at a line of the source if there is no dollar, or if
every text closes the dollar formulas it opens. -/
theorem C46_partial (s : Str) (x : Error) (h : fromStr s = .error (.err x)) :
    (Ast2.fromStr s = .error (.err x) ∧ 1 ≤ x.line ∧
      x.line ≤ lineCount s + s.countP (fun c => c == '{' || c == '[' || c == '(')) ∨
    (∃ e, Ast2.fromStr s = .ok e ∧ x.line ≤ lineCount s ∧ ('$' ∉ s ∨ DollarsClosed e → 1 ≤ x.line)) := by
  unfold fromStr at h
  cases h2 : Ast2.fromStr s with
  | error f =>
    rw [h2] at h
    injection h with h; subst h
    exact .inl ⟨rfl, Ast2.C25_partial s x h2⟩
  | ok e =>
    rw [h2] at h
    simp only at h
    refine .inr ⟨e, rfl, ?_, ?_⟩
    · have spec : FailSpec (fun c => (∀ t, c.variant ≠ .text t) → c.lineNo ≤ lineCount s)
          (fun f => ∀ y, f = .err y → y.line ≤ lineCount s) := by
        refine ⟨?_, ?_, .inr ⟨?_, ?_, ?_, ?_⟩⟩
        · rintro k l args hq y hy; cases hy; exact hq (by simp [Ast2.Chunk.variant])
        · rintro k l args hq y hy; cases hy; exact hq (by simp [Ast2.Chunk.variant])
        · rintro y hy; cases hy; exact Nat.zero_le _
        · intro y hy; cases hy
        · intro l t hq; exact absurd rfl (hq t)
        · intro l l' v hq hle hv; exact Nat.le_trans hle (hq hv)
      rcases fail_tryFrom (e := e) spec (fun lv hl c hc _ => (Ast2.level_lines h2 hl hc).2) with ⟨f, hf, a, l, args, b, hp, _, hx⟩ | ⟨_, hpost⟩
      · rw [h] at hf
        injection hf with hf; subst hf
        have hmem : Ast2.Chunk.mk l (.command (.mk chars!"documentclass" args)) ∈ e := by
          have : Ast2.Chunk.mk l (.command (.mk chars!"documentclass" args)) ∈ preambleOf e := by rw [hp]; simp
          exact (List.takeWhile_sublist _).subset this
        have := (Ast2.level_lines h2 .top hmem).2
        rcases hx with ⟨hx, _⟩ | ⟨hx, _⟩ <;> (injection hx with hx; subst hx; exact this)
      · rw [h] at hpost; exact hpost x rfl
    · intro hd
      have hcl : DollarsClosed e := by
        rcases hd with hd | hd
        · intro t ht ho
          obtain ⟨lv, l, hl, hm⟩ := Ast2.within_level ht
          exact hd (Ast2.dollar_parsed h2 hl hm (openDollar_dollar ho))
        · exact hd
      have := post_tryFrom (converting_closed fun n => 1 ≤ n) ⟨hcl, Ast2.positive_parsed h2, fun lv hl c hc => (Ast2.level_lines h2 hl hc).1⟩
      rw [h] at this
      rcases this with ⟨y, hy, h1⟩ | ⟨l, args, t, hy, hm⟩
      · cases hy; exact h1
      · cases hy; exact (Ast2.level_lines h2 .top hm).1

/-- C46 is false of the code: an unclosed dollar formula is reported at line 0. -/
theorem C46_false : fromStr chars!"a\n$" = .error (.err ⟨0, .unclosedMaths⟩) := by decide +kernel

example : fromStr chars!"a\n\n\\(x" = .error (.err ⟨3, .unclosedMaths⟩) := by decide +kernel

end LatexAst.Ast3
