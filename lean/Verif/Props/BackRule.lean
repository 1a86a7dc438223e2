import Verif.Proofs.BackRule3
import Verif.Props.Total3
import Verif.Props.Environments
import Verif.Model.Eq1
import Verif.Model.Eq2
import Verif.Model.Eq3

/-! # C60, C61: the conversions back follow one rule -/

namespace LatexAst.Ast2

/-- C60: converting to stage 1 gives exactly the unfolded chunks, adjacent texts put together. -/
theorem C60 (e : Document) (d : Ast1.Document) : toAst1 e = .ok d ↔ ∃ xs, Unfolds e xs ∧ d = Ast1.joinTexts xs := by
  have hj : ∀ xs, intoChunks 0 e = .ok xs → toAst1 e = .ok (Ast1.joinTexts xs) := by
    intro xs h
    rw [toAst1_eq h, (Ast1.foldl_push_join xs).2 [] (by simp), List.nil_append]
  constructor
  · intro h
    rcases rule2 0 e with ⟨xs, h1, h2⟩ | h1
    · rw [map_shift2_zero] at h1 h2
      refine ⟨xs, h2, ?_⟩
      rw [hj xs h1] at h
      cases h
      rfl
    · rw [map_shift2_zero] at h1
      rw [toAst1_panics h1] at h
      cases h
  · rintro ⟨xs, h1, rfl⟩
    exact hj xs (unfolds_into h1)
where
  loop_panics {e : List Chunk} (h : intoChunks 0 e = .error .panic) (a : Ast1.Document) : toAst1Loop e a = .error .panic := by
    induction e generalizing a with
    | nil => cases h
    | cons c e ih =>
      obtain ⟨l, v⟩ := c
      simp only [intoChunks, Nat.add_zero] at h
      simp only [toAst1Loop]
      cases hv : intoVariant l v with
      | error f => simp [hv] at h; simp [h]
      | ok xs =>
        cases hr : intoChunks 0 e with
        | error f =>
          simp [hv, hr] at h
          subst h
          exact ih hr _
        | ok ys => simp [hv, hr] at h
  toAst1_panics {e : List Chunk} (h : intoChunks 0 e = .error .panic) : toAst1 e = .error .panic := loop_panics h []

/-- C60, otherwise: the conversion panics (it has no other way to fail). -/
theorem C60_panics (e : Document) : toAst1 e = .error .panic ↔ ¬ ∃ xs, Unfolds e xs := by
  rcases rule2 0 e with ⟨xs, h1, h2⟩ | h1
  · rw [map_shift2_zero] at h1 h2
    have := (C60 e _).2 ⟨xs, h2, rfl⟩
    rw [this]
    constructor
    · intro h; cases h
    · intro h; exact absurd ⟨xs, h2⟩ h
  · rw [map_shift2_zero] at h1
    have := C60.toAst1_panics h1
    simp only [this, true_iff]
    rintro ⟨xs, h⟩
    rw [unfolds_into h] at h1
    cases h1

/-- C60, one meaning: the rule gives at most one result. -/
theorem C60_unique (e : Document) {xs ys} (hx : Unfolds e xs) (hy : Unfolds e ys) : xs = ys := by
  have h1 := unfolds_into hx
  rw [unfolds_into hy] at h1
  cases h1
  rfl

/-- A derivation without the code: a text, and an environment on line 3 with a text on its second line. -/
example : Unfolds [.mk 1 (.text chars!"x\n\n"), .mk 3 (.environment (.mk chars!"a" [] [.mk 1 (.text chars!"\ny")] [] []))]
    [.mk 1 (.text chars!"x\n\n"), .mk 3 (.command (.mk chars!"begin" [([], .mk [.mk 1 (.text chars!"a")] .curly)])),
     .mk 3 (.text chars!"\ny"), .mk 4 (.command (.mk chars!"end" [([], .mk [.mk 1 (.text chars!"a")] .curly)]))] :=
  .text (Unfolds.environment (l := 3) (label := chars!"a") (lab := [.mk 1 (.text chars!"a")]) (pb := []) (k := 1) (items := []) (content := [.mk 1 (.text chars!"\ny")])
    (content' := [.mk 3 (.text chars!"\ny")]) (by decide +kernel) (by simp) (by decide) (.text .nil) .nil (by decide +kernel))

end LatexAst.Ast2

namespace LatexAst.Ast3

/-- C61, chunks: converting stage-3 chunks to stage 2 gives exactly the unfolded chunks. -/
theorem C61_chunks (cs : List Chunk) (out : List Ast2.Chunk) : intoChunks cs = .ok out ↔ Unfolds cs out :=
  ⟨rule3 cs out, unfolds_into⟩

/-- C61, one meaning. -/
theorem C61_unique (cs : List Chunk) {xs ys} (hx : Unfolds cs xs) (hy : Unfolds cs ys) : xs = ys := by
  have h1 := unfolds_into hx
  rw [unfolds_into hy] at h1
  cases h1
  rfl

/-- C61: converting a document to stage 2 gives exactly the result of the rule, numbers included. -/
theorem C61 (f : Document) (e : Ast2.Document) : toAst2 f = .ok e ↔ DocumentUnfolds f e := by
  have hdoc : ∀ {pre body tr args}, intoChunks f.preamable = .ok pre → intoChunks f.body = .ok body →
      intoArgs f.bodyArgs = .ok args → intoChunks f.trailing = .ok tr →
      toAst2 f = (match checkedSub (newlines ({ f with trailing := [] } : Document).written + 1) 2 with
        | .error p => .error p
        | .ok n => .ok (pre ++ .mk (newlines (displayChunks f.preamable)) (.environment (.mk chars!"document" args
            (body.map (Ast2.Chunk.shift (newlines (f.bodyBeginPrec ++ displayArgs f.bodyArgs)))) f.bodyBeginPrec f.bodyEndPrec)) ::
            Ast2.joinTexts (tr.map (Ast2.Chunk.shift n)))) := by
    intro pre body tr args h1 h2 h3 h4
    have hp : Ast2.linesSum pre = newlines (displayChunks f.preamable) := by
      rw [Ast2.linesSum_eq, into_display_ok h1]
    have hb : linesArgs f.bodyArgs + newlines f.bodyBeginPrec = newlines (f.bodyBeginPrec ++ displayArgs f.bodyArgs) := by
      rw [newlines_append, linesArgs_eq]; omega
    unfold toAst2
    simp only [h1, h2, h3, h4, hp, hb]
    have hl : ∀ bo, (Ast2.Chunk.mk (newlines (displayChunks f.preamable)) (.environment (.mk chars!"document" args
        (body.map (Ast2.Chunk.shift bo)) f.bodyBeginPrec f.bodyEndPrec))).lines + newlines (displayChunks f.preamable) =
        newlines ({ f with trailing := [] } : Document).written + 1 := by
      intro bo
      have h0 := Ast2.Chunk.lines_eq (.mk (newlines (displayChunks f.preamable)) (.environment (.mk chars!"document" args
        (body.map (Ast2.Chunk.shift bo)) f.bodyBeginPrec f.bodyEndPrec)))
      have e0 : ({ f with trailing := [] } : Document).written = displayChunks f.preamable ++
          (Ast2.Chunk.mk (newlines (displayChunks f.preamable)) (.environment (.mk chars!"document" args
          (body.map (Ast2.Chunk.shift bo)) f.bodyBeginPrec f.bodyEndPrec))).display := by
        rw [display_body2, display2_shift, into_display_ok h2, intoArgs_display_ok h3]
        simp [Document.written, displayChunks]
      rw [e0, newlines_append]
      omega
    rw [hl]
    cases checkedSub (newlines ({ f with trailing := [] } : Document).written + 1) 2 with
    | error p => rfl
    | ok n =>
      simp only
      rw [(Ast2.foldl_push_join _).2]
      · simp [Ast2.Document.pushChunkUnchecked, Ast2.Chunk.variant]
      · intro l t h
        simp [Ast2.Document.pushChunkUnchecked, Ast2.Chunk.variant] at h
  constructor
  · intro h
    have h' := h
    unfold toAst2 at h'
    cases h1 : intoChunks f.preamable with
    | error p => simp [h1] at h'
    | ok pre =>
    cases h2 : intoChunks f.body with
    | error p => simp [h1, h2] at h'
    | ok body =>
    cases h3 : intoArgs f.bodyArgs with
    | error p => simp [h1, h2, h3] at h'
    | ok args =>
    cases h4 : intoChunks f.trailing with
    | error p =>
      simp only [h1, h2, h3, h4] at h'
      split at h' <;> cases h'
    | ok tr =>
    rw [hdoc h1 h2 h3 h4] at h
    obtain ⟨items, rfl, h5, h6⟩ := rule_args3 _ _ h3
    unfold checkedSub at h
    split at h
    · cases h
    · rename_i n hn
      split at hn
      · cases hn
        cases h
        refine .mk (rule3 _ _ h1) (rule3 _ _ h2) h5 h6 (rule3 _ _ h4) (newlines_eq_count _) (newlines_eq_count _) ?_
        rw [← newlines_eq_count]
        omega
      · cases hn
  · rintro ⟨h1, h2, h3, h4, h5, h6, h7, h8⟩
    rw [← newlines_eq_count] at h6 h7 h8
    have ha := intoArgs_items _ fun x hx => unfolds_into (h4 x hx)
    rw [← h3] at ha
    rw [hdoc (unfolds_into h1) (unfolds_into h2) ha (unfolds_into h5), ← h8, ← h6, ← h7]
    rfl
where
  into_display_ok {cs out} (h : intoChunks cs = .ok out) : Ast2.displayChunks out = displayChunks cs := by
    rcases into_spec cs with ⟨_, o, h1, h2⟩ | ⟨_, h1⟩
    · rw [h] at h1; cases h1; exact h2
    · rw [h] at h1; cases h1
  intoArgs_display_ok {cs out} (h : intoArgs cs = .ok out) : Ast2.displayArgs out = displayArgs cs := by
    rcases into_args_spec cs with ⟨_, o, h1, h2⟩ | ⟨_, h1⟩
    · rw [h] at h1; cases h1; exact h2
    · rw [h] at h1; cases h1

/-- C61, otherwise: the conversion panics. -/
theorem C61_panics (f : Document) : toAst2 f = .error .panic ↔ ¬ ∃ e, DocumentUnfolds f e := by
  rcases toAst2_spec f with ⟨_, _, e, h, _⟩ | ⟨_, h⟩
  · rw [h]
    constructor
    · intro h; cases h
    · intro h'; exact absurd ⟨e, (C61 f e).1 h⟩ h'
  · simp only [h, true_iff]
    rintro ⟨e, he⟩
    rw [(C61 f e).2 he] at h
    cases h

/-- Derivations without the code: a formula `$x$` over two lines, and one with commands. -/
example : Unfolds [.mk 2 (.mathsBlock (.mk .dollars .inline [.mk 1 (.text chars!"x\ny")])),
      .mk 3 (.mathsBlock (.mk .dollars .outline [.mk 1 (.command (.mk chars!"a" []))]))]
    [.mk 2 (.text chars!"$x\ny$"), .mk 3 (.text chars!"$$"), .mk 3 (.command (.mk chars!"a" [])), .mk 3 (.text chars!"$$")] := by
  refine Unfolds.maths (block := [.mk 1 (.text chars!"$x\ny$")]) (by decide) (.text .nil) ?_
    (Unfolds.maths (ds := []) (block := [.mk 1 (.text chars!"$$"), .mk 1 (.command (.mk chars!"a" [])), .mk 1 (.text chars!"$$")]) (by decide)
      (Unfolds.command (items := []) (by simp) .nil) ?_ .nil)
  · exact .dollar (by simp) (.text (δ := chars!"$")) (ClosesWith.text (δ := chars!"$") (r := []) (t := chars!"$x\ny"))
  · exact .dollars (by simp) (.other (by intro l t r h; cases h)) (ClosesWith.other (δ := chars!"$$")
      (cs := [.mk 1 (.text chars!"$$"), .mk 1 (.command (.mk chars!"a" []))]) (by
        intro l t r h
        rcases r with _ | ⟨_, _ | ⟨_, r⟩⟩ <;> simp at h))

/-- A document that converts. -/
example : ∃ f e, fromStr chars!"a\n\\begin{document}$x$\n\\end{document}b" = .ok f ∧ DocumentUnfolds f e := by
  have h : (match fromStr chars!"a\n\\begin{document}$x$\n\\end{document}b" with
      | .ok f => (toAst2 f).isOk
      | _ => false) = true := by decide +kernel
  split at h
  · rename_i f hf
    cases he : toAst2 f with
    | error x => rw [he] at h; cases h
    | ok e => exact ⟨f, e, hf, (C61 f e).1 he⟩
  · cases h

end LatexAst.Ast3
