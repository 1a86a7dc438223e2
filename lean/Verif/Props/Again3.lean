import Verif.Proofs.Again3f
import Verif.Props.MathsRule

/-!
# Stage 3: going to stage 2 and back, in memory (C115)
-/

namespace LatexAst.Ast3
open Spec

theorem gives_maths {ds out} (h : ∀ o, Yields 0 ds o → Gives o out) :
    mathsFromChunks ds = .error .panic ∨ ∃ out2, mathsFromChunks ds = .ok out2 ∧ noLines out2 = noLines out := by
  obtain ⟨o, ho⟩ := yields_total 0 ds
  rcases h o ho with rfl | ⟨raw, rfl, h⟩
  · exact .inl ((C55_error _ _).2 ho)
  · exact .inr ⟨_, (C55_ok _ _).2 ⟨raw, ho, rfl⟩, h⟩

/-- C115, the rule: what going to stage 2 and back makes of chunks, apart from line numbers, unless it panics. -/
theorem C115_rule {cs out' : List Chunk} {ds : List Ast2.Chunk} (h : Resettles cs out') (hd : intoChunks cs = .ok ds) :
    mathsFromChunks ds = .error .panic ∨ ∃ out, mathsFromChunks ds = .ok out ∧ noLines out = noLines out' :=
  gives_maths fun _ hy => h.resettled.alone (rule3 _ _ hd) rfl hy

/-- C115, every sequence of chunks the conversion returns can go to stage 2 and back by the rule. -/
theorem C115_made {ds0 : List Ast2.Chunk} {cs : List Chunk} (h : mathsFromChunks ds0 = .ok cs) : ∃ out', Resettles cs out' := by
  obtain ⟨raw, h1, rfl⟩ := (C55_ok _ _).1 h
  exact (yields_made h1 raw rfl).rule

/-- C115: chunks that were converted from stage 2 go to stage 2 and back without an error, and come back the same (apart from line
numbers) exactly if no formula in dollar signs has a piece of text before its end. -/
theorem C115 {ds0 ds : List Ast2.Chunk} {cs : List Chunk} (h : mathsFromChunks ds0 = .ok cs) (hd : intoChunks cs = .ok ds) :
    mathsFromChunks ds = .error .panic ∨ ∃ out, mathsFromChunks ds = .ok out ∧ (noLines out = noLines cs ↔ OnePiece cs) := by
  obtain ⟨out', hr⟩ := C115_made h
  rcases C115_rule hr hd with h1 | ⟨out, h1, h2⟩
  · exact .inl h1
  · exact .inr ⟨out, h1, by rw [h2]; exact hr.same.2⟩

theorem goes_maths {ds : List Ast2.Chunk} : (∃ out, mathsFromChunks ds = .ok out) ↔ ∀ o, Yields 0 ds o → Goes o := by
  constructor
  · rintro ⟨out, h⟩ o ho
    obtain ⟨raw, h1, _⟩ := (C55_ok _ _).1 h
    exact ⟨raw, yields_unique ho h1⟩
  · intro h
    obtain ⟨o, ho⟩ := yields_total 0 ds
    obtain ⟨raw, rfl⟩ := h o ho
    exact ⟨_, (C55_ok _ _).2 ⟨raw, ho, rfl⟩⟩

/-- C115, when it panics: chunks that were converted from stage 2 come back from stage 2 exactly if no formula in dollar signs has
something in it that is numbered more than one line above its closing. -/
theorem C115_returns {ds0 ds : List Ast2.Chunk} {cs : List Chunk} (h : mathsFromChunks ds0 = .ok cs) (hd : intoChunks cs = .ok ds) :
    (∃ out, mathsFromChunks ds = .ok out) ↔ ∀ k content, Within cs (.mathsBlock (.mk .dollars k content)) → ¬ Strays content := by
  obtain ⟨out', hr⟩ := C115_made h
  obtain ⟨raw, h1, rfl⟩ := (C55_ok _ _).1 h
  have hrest := hr.rests (yields_closed h1 raw rfl)
  rw [goes_maths]
  obtain ⟨o, ho⟩ := yields_total 0 ds
  have := hrest.alone (rule3 _ _ hd) (relined_refl _ _) ho
  constructor
  · intro hg; exact this.1 (hg o ho)
  · intro hs o' ho'
    rw [yields_unique ho' ho]
    exact this.2 hs

/-- C115, when it panics. -/
theorem C115_panics {ds0 ds : List Ast2.Chunk} {cs : List Chunk} (h : mathsFromChunks ds0 = .ok cs) (hd : intoChunks cs = .ok ds) :
    mathsFromChunks ds = .error .panic ↔ ∃ k content, Within cs (.mathsBlock (.mk .dollars k content)) ∧ Strays content := by
  have h1 := C115_returns h hd
  constructor
  · intro hp
    refine Classical.byContradiction fun hn => ?_
    obtain ⟨out, ho⟩ := h1.2 fun k content hw hs => hn ⟨k, content, hw, hs⟩
    rw [hp] at ho; cases ho
  · rintro ⟨k, content, hw, hs⟩
    rcases C115 h hd with h2 | ⟨out, h2, _⟩
    · exact h2
    · exact absurd hs (h1.1 ⟨out, h2⟩ k content hw)

/-- C115, going again: after going to stage 2 and back once, going again changes nothing more. -/
theorem C115_settles {ds0 ds ds2 : List Ast2.Chunk} {cs out out2 : List Chunk} (h : mathsFromChunks ds0 = .ok cs) (hd : intoChunks cs = .ok ds)
    (ho : mathsFromChunks ds = .ok out) (hd2 : intoChunks out = .ok ds2) (ho2 : mathsFromChunks ds2 = .ok out2) : noLines out2 = noLines out := by
  obtain ⟨out', hr⟩ := C115_made h
  rcases C115_rule hr hd with h1 | ⟨o, h1, h2⟩
  · rw [ho] at h1; cases h1
  · rw [ho] at h1
    cases h1
    rcases C115 ho hd2 with h3 | ⟨o2, h3, h4⟩
    · rw [ho2] at h3; cases h3
    · rw [ho2] at h3
      cases h3
      exact h4.2 (onePiece_same h2.symm hr.onePiece)

/-- C115, there are never fewer chunks afterwards. -/
theorem C115_grows {ds0 ds : List Ast2.Chunk} {cs out : List Chunk} (h : mathsFromChunks ds0 = .ok cs) (hd : intoChunks cs = .ok ds)
    (ho : mathsFromChunks ds = .ok out) : cs.length ≤ out.length := by
  obtain ⟨out', hr⟩ := C115_made h
  rcases C115_rule hr hd with h1 | ⟨out2, h1, h2⟩
  · rw [ho] at h1; cases h1
  · rw [ho] at h1
    cases h1
    have := congrArg List.length h2
    rw [noLines_length, noLines_length] at this
    rw [this]
    exact hr.same.1

/-! ### cases -/

/-- `$a\n\nb$`: the formula loses its first two pieces of text on the way. -/
theorem C115_loses :
    mathsFromChunks [.mk 1 (.text chars!"$a\n\nb$")] =
      .ok [.mk 1 (.mathsBlock (.mk .dollars .inline [.mk 1 (.text chars!"a"), .mk 1 (.paragraphBreak chars!"\n\n"), .mk 3 (.text chars!"b")]))] ∧
    intoChunks [.mk 1 (.mathsBlock (.mk .dollars .inline [.mk 1 (.text chars!"a"), .mk 1 (.paragraphBreak chars!"\n\n"), .mk 3 (.text chars!"b")]))] =
      .ok [.mk 1 (.text chars!"$a"), .mk 1 (.text chars!"\n\n"), .mk 3 (.text chars!"b$")] ∧
    mathsFromChunks [.mk 1 (.text chars!"$a"), .mk 1 (.text chars!"\n\n"), .mk 3 (.text chars!"b$")] =
      .ok [.mk 1 (.text chars!"a"), .mk 1 (.paragraphBreak chars!"\n\n"), .mk 3 (.mathsBlock (.mk .dollars .inline [.mk 1 (.text chars!"b")]))] := by
  refine ⟨?_, ?_, ?_⟩ <;> decide +kernel

/-- `$\foo{a\nb}$` comes from stage 2 and goes there, but coming back panics. -/
theorem C115_panic :
    mathsFromChunks [.mk 1 (.text chars!"$"), .mk 1 (.command (.mk chars!"foo" [([], .mk [.mk 1 (.text chars!"a\nb")] .curly)])), .mk 2 (.text chars!"$")] =
      .ok [.mk 2 (.mathsBlock (.mk .dollars .inline [.mk 0 (.command (.mk chars!"foo" [([], .mk [.mk 1 (.text chars!"a\nb")] .curly)]))]))] ∧
    intoChunks [.mk 2 (.mathsBlock (.mk .dollars .inline [.mk 0 (.command (.mk chars!"foo" [([], .mk [.mk 1 (.text chars!"a\nb")] .curly)]))]))] =
      .ok [.mk 2 (.text chars!"$"), .mk 1 (.command (.mk chars!"foo" [([], .mk [.mk 1 (.text chars!"a\nb")] .curly)])), .mk 3 (.text chars!"$")] ∧
    mathsFromChunks [.mk 2 (.text chars!"$"), .mk 1 (.command (.mk chars!"foo" [([], .mk [.mk 1 (.text chars!"a\nb")] .curly)])), .mk 3 (.text chars!"$")] =
      .error .panic := by
  refine ⟨?_, ?_, ?_⟩ <;> decide +kernel

/-- A case that comes back: `x\n\n$\alpha b$ \(c\)`. -/
example :
    mathsFromChunks [.mk 1 (.text chars!"x\n\n$"), .mk 3 (.command (.mk chars!"alpha" [])), .mk 3 (.text chars!" b$ "), .mk 3 (.command (.mk chars!"(" [])),
        .mk 3 (.text chars!"c"), .mk 3 (.command (.mk chars!")" []))] =
      .ok [.mk 1 (.text chars!"x"), .mk 1 (.paragraphBreak chars!"\n\n"),
        .mk 3 (.mathsBlock (.mk .dollars .inline [.mk 1 (.command (.mk chars!"alpha" [])), .mk 1 (.text chars!" b")])), .mk 3 (.text chars!" "),
        .mk 3 (.mathsBlock (.mk .brackets .inline [.mk 3 (.text chars!"c")]))] ∧
    ∃ ds out, intoChunks [.mk 1 (.text chars!"x"), .mk 1 (.paragraphBreak chars!"\n\n"),
        .mk 3 (.mathsBlock (.mk .dollars .inline [.mk 1 (.command (.mk chars!"alpha" [])), .mk 1 (.text chars!" b")])), .mk 3 (.text chars!" "),
        .mk 3 (.mathsBlock (.mk .brackets .inline [.mk 3 (.text chars!"c")]))] = .ok ds ∧ mathsFromChunks ds = .ok out ∧
      noLines out = noLines [.mk 1 (.text chars!"x"), .mk 1 (.paragraphBreak chars!"\n\n"),
        .mk 3 (.mathsBlock (.mk .dollars .inline [.mk 1 (.command (.mk chars!"alpha" [])), .mk 1 (.text chars!" b")])), .mk 3 (.text chars!" "),
        .mk 3 (.mathsBlock (.mk .brackets .inline [.mk 3 (.text chars!"c")]))] :=
  ⟨by decide +kernel,
    [.mk 1 (.text chars!"x"), .mk 1 (.text chars!"\n\n"), .mk 3 (.text chars!"$"), .mk 3 (.command (.mk chars!"alpha" [])), .mk 3 (.text chars!" b$"),
      .mk 3 (.text chars!" "), .mk 3 (.command (.mk chars!"(" [])), .mk 5 (.text chars!"c"), .mk 3 (.command (.mk chars!")" []))],
    [.mk 1 (.text chars!"x"), .mk 1 (.paragraphBreak chars!"\n\n"),
        .mk 3 (.mathsBlock (.mk .dollars .inline [.mk 1 (.command (.mk chars!"alpha" [])), .mk 1 (.text chars!" b")])), .mk 3 (.text chars!" "),
        .mk 3 (.mathsBlock (.mk .brackets .inline [.mk 5 (.text chars!"c")]))],
    by decide +kernel, by decide +kernel, by decide +kernel⟩

end LatexAst.Ast3
