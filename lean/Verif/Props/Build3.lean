import Verif.Proofs.Build3

/-!
# C113: building stage-3 documents that survive saving and loading
-/

namespace LatexAst.Ast3
open Spec

theorem survives_fragment_nil : Survives (fragment []) := (fragment_iff []).2 ⟨⟨.nil, Ast2.C108_nil, calm_nil⟩, by simp [spelled, spellOnto], rfl, rfl⟩

theorem sound_comma : Sound [.mk 0 (.command (.mk chars!"," []))] := by
  rw [sound_command]
  exact ⟨by decide, by decide, by decide, .inr ⟨_, rfl, by decide, rfl⟩⟩

theorem touches_comma (cs : List Chunk) : Ast2.Touches afterBegin (spelled (.mk 0 (.command (.mk chars!"," [])) :: cs)) := by
  have e : spelled (.mk 0 (.command (.mk chars!"," [])) :: cs) = .mk 0 (.command (.mk chars!"," [])) :: spelled cs := rfl
  rw [e]
  refine ⟨?_, ?_, ?_⟩
  · intro i l x name args l' t r _ _ h; simp at h
  · intro i l env l' t r _ h; simp at h
  · intro i w w' l v r _ hb _ hw
    cases w' with
    | nil =>
      simp at hb
      obtain ⟨⟨_, rfl⟩, _⟩ := hb
      refine ⟨fun _ h => (by cases h), fun y args h => ?_⟩
      cases h
      decide
    | cons c w' =>
      simp only [List.cons_append, List.cons.injEq] at hb
      obtain ⟨rfl, _⟩ := hb
      obtain ⟨t, ht, _⟩ := hw (.mk 0 (.command (.mk chars!"," []))) (by simp)
      simp [Ast2.Chunk.variant] at ht

/-- The chunks can stand in a document exactly if they are sound. -/
theorem inDocument_iff (cs : List Chunk) : InDocument cs ↔ Sound cs := by
  unfold InDocument
  rw [body_iff _ survives_fragment_nil, show ∀ c : Chunk, c :: cs = [c] ++ cs from fun _ => rfl, sound_append]
  constructor
  · rintro ⟨⟨_, h, _, _⟩, _⟩; exact h
  · intro h
    refine ⟨⟨sound_comma, h, seam_node node_command, ?_⟩, touches_comma cs⟩
    exact Ast2.touches_left_symbol (by decide)

theorem goodArgs_iff (args : List (Str × Scope)) : GoodArgs args ↔ SoundArgs args := by
  unfold GoodArgs SoundArgs
  simp only [inDocument_iff]

/-- C113: no chunks can stand in a document. -/
theorem C113_nil : InDocument [] := (inDocument_iff _).2 ⟨.nil, Ast2.C108_nil, calm_nil⟩

/-- C113: sequences of chunks one after the other. -/
theorem C113_append (a b : List Chunk) : InDocument (a ++ b) ↔ InDocument a ∧ InDocument b ∧ Seam a b ∧ Ast2.Touches (spelled a) (spelled b) := by
  simp only [inDocument_iff, sound_append]

/-- C113: texts: not empty, without paragraph breaks, and without backslash, percent and dollar signs and opening brackets. -/
theorem C113_text (l : Nat) (t : Str) : InDocument [.mk l (.text t)] ↔ t ≠ [] ∧ ¬ ParagraphGap t ∧ ∀ x ∈ t, x ∉ ['\\', '%', '{', '[', '(', '$'] := by
  rw [inDocument_iff, sound_text]
  exact ⟨fun h => ⟨h.1.1, h.1.2, h.2⟩, fun h => ⟨⟨h.1, h.2.1⟩, h.2.2⟩⟩

/-- C113: paragraph breaks: blanks that begin with a newline and contain another one. -/
theorem C113_break (l : Nat) (s : Str) : InDocument [.mk l (.paragraphBreak s)] ↔ IsBreak s := by
  rw [inDocument_iff, sound_break]

/-- C113: scopes: curly ones, without closing curly brackets in texts. -/
theorem C113_scope (l : Nat) (inner : List Chunk) (sv : ScopeVariant) : InDocument [.mk l (.scope (.mk inner sv))] ↔
    sv = .curly ∧ InDocument inner ∧ ∀ t, Ast2.Within (spelled inner) (.text t) → '}' ∉ t := by
  rw [inDocument_iff, inDocument_iff, sound_scope]

/-- C113: commands: letter commands with arguments, or a single character; not `\begin`, `\end` and the delimiters of maths. -/
theorem C113_command (l : Nat) (label : Str) (args : List (Str × Scope)) : InDocument [.mk l (.command (.mk label args))] ↔
    label ≠ chars!"begin" ∧ label ≠ chars!"end" ∧ ¬ IsDelimiter label ∧
      ((Ast1.LetterName label ∧ GoodArgs args) ∨ ∃ c, label = [c] ∧ isAsciiAlphabetic c = false ∧ args = []) := by
  rw [inDocument_iff, sound_command, goodArgs_iff]

/-- C113: environments: the content may stand after a letter command with an argument. -/
theorem C113_environment (l : Nat) (label : Str) (args : List (Str × Scope)) (content : List Chunk) (pb pe : Str) :
    InDocument [.mk l (.environment (.mk label args content pb pe))] ↔ Blank pb ∧ Blank pe ∧ GoodName label ∧ GoodArgs args ∧ InDocument content ∧
      Ast2.Touches afterBegin (spelled content) := by
  rw [inDocument_iff, inDocument_iff, sound_environment, goodArgs_iff]

/-- C113: formulas in brackets: anything that does not contain these brackets. -/
theorem C113_brackets (l : Nat) (k : MathsType) (content : List Chunk) : InDocument [.mk l (.mathsBlock (.mk .brackets k content))] ↔
    InDocument content ∧ NoDelimiter k (spelled content) := by
  rw [inDocument_iff, inDocument_iff, sound_brackets]

/-- C113: formulas in dollar signs: at stage 2 there are no texts in them except at their end, without dollar signs; `$..$` is not empty; they do not
end with a letter command without arguments; and their lines can be counted. -/
theorem C113_dollars (l : Nat) (k : MathsType) (content : List Chunk) : InDocument [.mk l (.mathsBlock (.mk .dollars k content))] ↔
    InDocument content ∧ (∃ ms t, spelled content = ms ++ textIf2 0 t ∧ (∀ m ∈ ms, NotText m) ∧ '$' ∉ t) ∧ (k = .inline → content ≠ []) ∧
      (∀ i l x name, spelled content = i ++ [.mk l (.command (.mk (x :: name) []))] → isAsciiAlphabetic x = false) ∧
      Ast2.ShortFrom (Ast2.nodesOnly (spelled content)) := by
  rw [inDocument_iff, inDocument_iff, sound_dollars]

/-- C113: documents: the same blanks after `\begin` and `\end`; the sections can stand in a document, body and trailing also after a letter command with
an argument; there is no other `document` environment; class and options are those of the `\documentclass` commands in the preamble. -/
theorem C113_document (f : Document) : Survives f ↔
    (f.bodyBeginPrec = f.bodyEndPrec ∧ Blank f.bodyBeginPrec) ∧ InDocument f.preamable ∧
    (GoodArgs f.bodyArgs ∧ InDocument f.body ∧ Ast2.Touches afterBegin (spelled f.body)) ∧
    (InDocument f.trailing ∧ Ast2.Touches afterBegin (spelled f.trailing)) ∧
    (∀ c, c ∈ spelled f.preamable ∨ c ∈ spelled f.trailing → isBody c = false) ∧
    ClassesOk (spelled f.preamable) ∧
    f.documentclass = (classNames (classArgs (spelled f.preamable))).head? ∧
    ReadsLists (optionLists (classArgs (spelled f.preamable))) f.documentoptions := by
  have ej : Ast2.Joins [.mk 1 (.command (.mk ['x'] [([], .mk [] .curly)]))] (spelled f.body) ↔ Ast2.Touches afterBegin (spelled f.body) :=
    Ast2.joins_touches (neat_afterBegin (neat_spelled f.body))
  have ed : ∃ lab, Ast1.fromStr chars!"document" = .ok lab ∧ Ast1.displayChunks lab = chars!"document" ∧ Ast1.NoGroupOf .curly lab ∧ Ast1.NoCloserOf .curly lab := by
    have := survives_environment_empty
    rw [Ast2.C108_environment] at this
    exact this.2.2.1
  have es : Ast2.Survives f.spelled ↔ (Blank f.bodyBeginPrec ∧ Blank f.bodyEndPrec) ∧ Ast2.Survives (spelled f.preamable) ∧
      (∀ prec inner sv, (prec, Ast2.Scope.mk inner sv) ∈ spellArgs f.bodyArgs → Blank prec ∧ Ast2.Survives inner ∧ Ast2.NoBracketOf sv inner) ∧
      (Ast2.Survives (spelled f.body) ∧ Ast2.Touches afterBegin (spelled f.body)) ∧
      Ast2.Survives (spelled f.trailing) ∧ Ast2.Touches afterBegin (spelled f.trailing) := by
    unfold Document.spelled
    rw [show ∀ (x : List Ast2.Chunk) c y, x ++ c :: y = x ++ [c] ++ y by intros; simp, Ast2.C108, Ast2.C108, Ast2.C108_environment, ej]
    have hn : Ast2.NeatSeq (spelled f.preamable ++ [.mk 0 (.environment (.mk chars!"document" (spellArgs f.bodyArgs) (spelled f.body) f.bodyBeginPrec f.bodyEndPrec))] ++ spelled f.trailing) := by
      have h1 : Ast2.NeatSeq (spelled ([.mk 0 (.environment (.mk chars!"document" f.bodyArgs f.body f.bodyBeginPrec f.bodyEndPrec))])) := neat_spelled _
      have h2 := Ast2.neat_join (neat_spelled f.preamable) h1 (fun i l t he hs => (by simp [spelled, spellOnto, ChunkVariant.spell, Ast2.StartsText] at hs))
      exact Ast2.neat_join h2 (neat_spelled f.trailing) (fun i l t he => (by
        have := (List.append_inj' he rfl).2
        simp at this))
    rw [Ast2.joins_touches hn, Ast2.touches_environment]
    constructor
    · rintro ⟨⟨a1, ⟨a2, a3, _, a5, a6, a7⟩, _⟩, a9, a10⟩; exact ⟨⟨a2, a3⟩, a1, a5, ⟨a6, a7⟩, a9, a10⟩
    · rintro ⟨⟨a2, a3⟩, a1, a5, ⟨a6, a7⟩, a9, a10⟩; exact ⟨⟨a1, ⟨a2, a3, ed, a5, a6, a7⟩, joins_environment⟩, a9, a10⟩
  rw [C110_exact]
  simp only [inDocument_iff, goodArgs_iff]
  constructor
  · rintro ⟨⟨b1, b2, b3, b4, b5, b6, b7, b8, b9, b10⟩, c1, c2, c3, c4⟩
    obtain ⟨⟨d1, d2⟩, d3, d4, ⟨d5, d6⟩, d7, d8⟩ := es.1 b2
    exact ⟨⟨b1, d1⟩, ⟨b3, d3, c1⟩, ⟨soundArgs_iff.2 ⟨b4, c2, d4⟩, ⟨b5, d5, c3⟩, d6⟩, ⟨⟨b6, d7, c4⟩, d8⟩, b7, b8, b9, b10⟩
  · rintro ⟨⟨b1, d1⟩, ⟨b3, d3, c1⟩, ⟨ha, ⟨b5, d5, c3⟩, d6⟩, ⟨⟨b6, d7, c4⟩, d8⟩, b7, b8, b9, b10⟩
    obtain ⟨b4, c2, d4⟩ := soundArgs_iff.1 ha
    exact ⟨⟨b1, es.2 ⟨⟨d1, b1 ▸ d1⟩, d3, d4, ⟨d5, d6⟩, d7, d8⟩, b3, b4, b5, b6, b7, b8, b9, b10⟩, c1, c2, c3, c4⟩

/-- The command `\alpha`, without arguments or with an empty one. -/
def alpha (args : List (Str × Scope)) : Chunk := .mk 0 (.command (.mk chars!"alpha" args))

/-- C113: `\(\alpha\)` and `$\alpha{}$` can stand in a document, and so can an environment with both in it; `$\alpha$` and `$x\alpha{}$` cannot
(`\alpha$` would be read as one command, and `x` would come before the formula), nor can `$$` as an empty formula. -/
theorem C113_example :
    InDocument [.mk 0 (.mathsBlock (.mk .brackets .inline [alpha []]))] ∧
    InDocument [.mk 0 (.mathsBlock (.mk .dollars .inline [alpha [([], .mk [] .curly)]]))] ∧
    InDocument [.mk 0 (.environment (.mk chars!"quote" [] [.mk 0 (.text chars!"see "), .mk 0 (.mathsBlock (.mk .brackets .inline [alpha []])), .mk 0 (.text chars!" and "),
      .mk 0 (.mathsBlock (.mk .dollars .inline [alpha [([], .mk [] .curly)]]))] [] []))] ∧
    ¬ InDocument [.mk 0 (.mathsBlock (.mk .dollars .inline [alpha []]))] ∧
    ¬ InDocument [.mk 0 (.mathsBlock (.mk .dollars .inline [.mk 0 (.text chars!"x"), alpha [([], .mk [] .curly)]]))] ∧
    ¬ InDocument [.mk 0 (.mathsBlock (.mk .dollars .inline []))] := by
  have key : ∀ cs, InDocument cs ↔ comesBack { fragment [] with body := .mk 0 (.command (.mk chars!"," [])) :: cs } = true := fun cs =>
    survives_comesBack { fragment [] with body := .mk 0 (.command (.mk chars!"," [])) :: cs }
  refine ⟨(key _).2 (by decide +kernel), (key _).2 (by decide +kernel), (key _).2 (by decide +kernel), ?_, ?_, ?_⟩
  · rw [C113_dollars]
    rintro ⟨_, _, _, h, _⟩
    exact absurd (h [] 0 'a' chars!"lpha" rfl) (by decide)
  · rw [key]; decide +kernel
  · rw [C113_dollars]
    rintro ⟨_, _, h, _⟩
    exact h rfl rfl

end LatexAst.Ast3
