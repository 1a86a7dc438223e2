import Verif.Proofs.Compose3
import Verif.Props.DocumentRule
import Verif.Props.Conversion

/-!
# Stage 3 is compositional (C73)
-/

namespace LatexAst.Ast3
open Spec

theorem lastBracket_texts_all {x : List Chunk} (b) (h : ∀ l m, .mk l (.mathsBlock m) ∉ x) : lastBracket b x = b :=
  lastBracket_none b fun l _ _ hm => h l _ hm

theorem lastBracket_paragraphs (b) (x : List Chunk) : lastBracket b (paragraphs x) = lastBracket b x := by
  induction x generalizing b with
  | nil => rfl
  | cons c x ih =>
    obtain ⟨l, v⟩ := c
    rw [paragraphs, lastBracket_append]
    cases v with
    | text t =>
      rw [ih, lastBracket_none b]
      · rfl
      · intro l' t' content hm
        rcases paragraphChunk_mem hm with ⟨_, h⟩ | ⟨_, _, _, ⟨_, _, h, _⟩ | ⟨_, _, h, _⟩⟩
        · exact h t rfl
        · cases h
        · cases h
    | mathsBlock m =>
      obtain ⟨v, t, content⟩ := m
      cases v <;> simp only [paragraphChunk, lastBracket, ih]
    | paragraphBreak | command | scope | environment => simp only [paragraphChunk, lastBracket, ih]

/-- C73: reading stage-2 chunks after others that are read without a problem gives what they give on their own. -/
theorem C73 (a c : List Ast2.Chunk) (x y : List Chunk) (ha : mathsFromChunks a = .ok x) (hc : mathsFromChunks c = .ok y) :
    mathsFromChunks (a ++ c) = .ok (x ++ y) := by
  obtain ⟨x, hx, rfl⟩ := (C55_ok _ _).1 ha
  obtain ⟨y, hy, rfl⟩ := (C55_ok _ _).1 hc
  rw [C55_ok]
  obtain ⟨o', ho', hs⟩ := yields_start hy (lastBracket 0 x)
  cases hs
  exact ⟨x ++ y, yields_append hx x rfl c _ ho', by rw [paragraphs_append]⟩

/-- C73, failures: so does a problem in the second part, or a panic; only an unclosed dollar formula at its top level is
reported on another line, that of the last bracket maths of the first part. -/
theorem C73_error (a c : List Ast2.Chunk) (x : List Chunk) (f : Fail) (ha : mathsFromChunks a = .ok x)
    (hc : mathsFromChunks c = .error f) :
    mathsFromChunks (a ++ c) = .error f ∨
    (f = .err ⟨0, .unclosedMaths⟩ ∧ mathsFromChunks (a ++ c) = .error (.err ⟨lastBracket 0 x, .unclosedMaths⟩)) := by
  obtain ⟨x, hx, rfl⟩ := (C55_ok _ _).1 ha
  have hy := (C55_error _ _).1 hc
  rw [C55_error, C55_error, lastBracket_paragraphs]
  obtain ⟨o', ho', hs⟩ := yields_start hy (lastBracket 0 x)
  have := yields_append hx x rfl c _ ho'
  cases hs with
  | same => exact .inl this
  | unclosed => exact .inr ⟨rfl, this⟩

/-- The second case occurs: the line of an unclosed formula depends on what precedes it. -/
theorem C73_unclosed : mathsFromChunks [.mk 7 (.text chars!"a$b")] = .error (.err ⟨0, .unclosedMaths⟩) ∧
    mathsFromChunks ([.mk 5 (.command (.mk chars!"(" [])), .mk 5 (.command (.mk chars!")" []))] ++ [.mk 7 (.text chars!"a$b")]) =
      .error (.err ⟨5, .unclosedMaths⟩) := by
  constructor <;> decide +kernel

/-- C73, further down: moving chunks that are read without a problem down by `k` lines moves the result by `k` lines. -/
theorem C73_shift (cs : List Ast2.Chunk) (out : List Chunk) (h : mathsFromChunks cs = .ok out) (k : Nat) :
    mathsFromChunks (cs.map (Ast2.Chunk.shift k)) = .ok (moved k out) := by
  obtain ⟨raw, h1, rfl⟩ := (C55_ok _ _).1 h
  rw [C55_ok]
  exact ⟨moved k raw, yields_down h1 k raw rfl 0, (paragraphs_moved k raw).symm⟩

/-- The converse fails: a formula that cannot be counted near the top can be further down. -/
theorem C73_shift_converse_false : mathsFromChunks [.mk 0 (.text chars!"$x$")] = .error .panic ∧
    mathsFromChunks ([.mk 0 (.text chars!"$x$")].map (Ast2.Chunk.shift 3)) =
      .ok [.mk 3 (.mathsBlock (.mk .dollars .inline [.mk 1 (.text chars!"x")]))] := by
  constructor <;> decide +kernel

/-! ### documents -/

theorem becomes_ok {cs out} : Becomes cs (.ok out) ↔ mathsFromChunks cs = .ok out := (C55 _ _).symm

theorem while_all {α} {p : α → Bool} {l : List α} (h : ∀ x ∈ l, p x = true) : l.takeWhile p = l ∧ l.dropWhile p = [] := by
  induction l with
  | nil => exact ⟨rfl, rfl⟩
  | cons x l ih =>
    have := ih fun x hx => h x (List.mem_cons_of_mem _ hx)
    simp [h x (List.mem_cons_self ..), this]

theorem while_some {α} {p : α → Bool} {l : List α} (h : ∃ x ∈ l, p x = false) (c : List α) :
    (l ++ c).takeWhile p = l.takeWhile p ∧ (l ++ c).dropWhile p = l.dropWhile p ++ c := by
  induction l with
  | nil => obtain ⟨x, h, _⟩ := h; cases h
  | cons y l ih =>
    cases hp : p y with
    | false => simp [hp]
    | true =>
      have := ih (by
        obtain ⟨x, h, hx⟩ := h
        rcases List.mem_cons.1 h with rfl | h
        · rw [hp] at hx; cases hx
        · exact ⟨x, h, hx⟩)
      simp [hp, this]

/-- No `\documentclass` command at the top level. -/
def NoClass (c : List Ast2.Chunk) : Prop := ∀ l args, .mk l (.command (.mk chars!"documentclass" args)) ∉ c

theorem classArgs_none {c} (h : NoClass c) : classArgs c = [] := by
  induction c with
  | nil => rfl
  | cons x c ih =>
    have hc := ih fun l args hm => h l args (List.mem_cons_of_mem _ hm)
    obtain ⟨l, v⟩ := x
    cases v with
    | command cm =>
      obtain ⟨label, args⟩ := cm
      simp only [classArgs]
      split
      · rename_i hl; subst hl; exact absurd (List.mem_cons_self ..) (h l args)
      · exact hc
    | text | scope | environment => simpa only [classArgs] using hc

theorem classesOk_append {e c} (h : ClassesOk e) (hc : NoClass c) : ClassesOk (e ++ c) := by
  intro a l args b he
  rcases List.append_eq_append_iff.1 he with ⟨a', h1, h2⟩ | ⟨c', h1, h2⟩
  · exact absurd (h2 ▸ List.mem_append_right _ (List.mem_cons_self ..)) (hc l args)
  · cases c' with
    | nil =>
      simp at h2
      exact absurd (h2 ▸ List.mem_cons_self ..) (hc l args)
    | cons x c' =>
      simp only [List.cons_append, List.cons.injEq] at h2
      obtain ⟨rfl, _⟩ := h2
      exact h a l args c' h1

/-- C73 for documents: what comes after a document with a `document` environment is read on its own, and becomes the end
of the trailing section. -/
theorem C73_trailing (e c : Ast2.Document) (f : Document) (y : List Chunk) (he : tryFrom e = .ok f)
    (hb : ∃ x ∈ e, isBody x = true) (hc : ∀ x ∈ c, isBody x = false) (hy : mathsFromChunks c = .ok y) :
    tryFrom (e ++ c) = .ok { f with trailing := f.trailing ++ y } := by
  have hr := (C57 e _).1 he
  refine (C57 _ _).2 ?_
  have hw := while_some (p := fun c => !isBody c) (by simpa using hb) c
  have hp : preambleOf (e ++ c) = preambleOf e := hw.1
  have hbo : bodiesOf (e ++ c) = bodiesOf e := by
    unfold bodiesOf
    rw [List.filter_append, List.filter_eq_nil_iff (l := c).2 (by simpa using hc), List.append_nil]
  have ht : trailingOf (e ++ c) = trailingOf e ++ c := by
    unfold trailingOf
    rw [hw.2, List.filter_append]
    congr 1
    exact List.filter_eq_self.2 (by simpa using hc)
  cases hr with
  | @document pre post args content pb pe options h1 h2 h3 h4 h5 h6 =>
    rw [← hp] at h1 h3 h6
    rw [← hbo] at h2
    refine Eq.mpr ?_ (Reads.document (pre := pre) (post := post ++ y) (args := args) (content := content) (pb := pb) (pe := pe)
      (options := options) h1 h2 h3 ?_ ?_ h6)
    · rw [hp]
    · rw [ht, becomes_ok]
      exact C73 _ _ _ _ (becomes_ok.1 h4) hy
    · cases h5 with
      | none h => exact .none (hbo.trans h)
      | last h h' => exact .last (hbo.trans h) h'

/-- C73 for documents: what comes after chunks without a `document` environment, and has none and no `\documentclass`
itself, is read on its own, and becomes the end of the preamble. -/
theorem C73_preamble (e c : Ast2.Document) (f : Document) (y : List Chunk) (he : tryFrom e = .ok f)
    (hb : ∀ x ∈ e, isBody x = false) (hc : ∀ x ∈ c, isBody x = false) (hn : NoClass c) (hy : mathsFromChunks c = .ok y) :
    tryFrom (e ++ c) = .ok { f with preamable := f.preamable ++ y } := by
  have hr := (C57 e _).1 he
  refine (C57 _ _).2 ?_
  have hall : ∀ d : List Ast2.Chunk, (∀ x ∈ d, isBody x = false) → preambleOf d = d ∧ bodiesOf d = [] ∧ trailingOf d = [] := by
    intro d h
    refine ⟨?_, List.filter_eq_nil_iff.2 (by simpa using h), ?_⟩
    · exact (while_all (by simpa using h)).1
    · unfold trailingOf
      rw [(while_all (by simpa using h)).2]
      rfl
  obtain ⟨p1, p2, p3⟩ := hall e hb
  obtain ⟨q1, q2, q3⟩ := hall (e ++ c) (by simpa [or_imp, forall_and] using ⟨hb, hc⟩)
  have hca : classArgs (preambleOf (e ++ c)) = classArgs (preambleOf e) := by
    rw [q1, p1, classArgs_append, classArgs_none hn, List.append_nil]
  cases hr with
  | @document pre post args content pb pe options h1 h2 h3 h4 h5 h6 =>
    rw [← hca] at h6
    refine Eq.mpr ?_ (Reads.document (pre := pre ++ y) (post := post) (args := args) (content := content) (pb := pb) (pe := pe)
      (options := options) ?_ ?_ ?_ ?_ ?_ h6)
    · rw [hca]
    · rw [q1]; rw [p1] at h1; exact classesOk_append h1 hn
    · rw [q2]; simp
    · rw [q1, becomes_ok]; rw [p1, becomes_ok] at h3
      exact C73 _ _ _ _ h3 hy
    · rw [q3]; rw [p3] at h4; exact h4
    · cases h5 with
      | none h => exact .none q2
      | last h h' => rw [p2] at h; simp at h

/-- C73 for sources: `b`, which has no `document` environment and no `\documentclass`, comes after the source `a` of a whole
document. It is read as it would be on its own, further down, and becomes the end of the trailing section. -/
theorem C73_source (a b : Str) (e : Ast2.Document) (d : Ast1.Document) (f g : Document) (ha : SelfContained a)
    (hb : Ast1.TextEnds b) (hd : Ast1.fromStr a = .ok d) (hc : Ast1.Complete d) (he : Ast2.fromStr a = .ok e)
    (hbody : ∃ x ∈ e, isBody x = true) (hf : fromStr a = .ok f) (hg : fromStr b = .ok g)
    (hno : ∀ c, Ast2.fromStr b = .ok c → ∀ x ∈ c, isBody x = false) :
    fromStr (a ++ b) = .ok { f with trailing := f.trailing ++ moved (a.count '\n') g.preamable } := by
  have hf' : tryFrom e = .ok f := by simpa only [fromStr, he] using hf
  obtain ⟨c, hcb⟩ : ∃ c, Ast2.fromStr b = .ok c := by
    unfold fromStr at hg
    cases h : Ast2.fromStr b with
    | error => rw [h] at hg; cases hg
    | ok c => exact ⟨c, rfl⟩
  have hg' : tryFrom c = .ok g := by simpa only [fromStr, hcb] using hg
  have hy : mathsFromChunks c = .ok g.preamable := by
    have hr := (C57 c _).1 hg'
    have hp : preambleOf c = c := (while_all (by simpa using hno c hcb)).1
    cases hr with
    | document h1 h2 h3 => rw [hp] at h3; exact becomes_ok.1 h3
  have h54 := Ast2.C54_source a b e c d ha hb hd hc he hcb
  unfold fromStr
  rw [h54]
  refine C73_trailing _ _ _ _ hf' hbody ?_ (C73_shift _ _ hy _)
  intro x hx
  obtain ⟨⟨l, v⟩, h1, rfl⟩ := List.mem_map.1 hx
  have := hno c hcb _ h1
  cases v with
  | environment env => cases env; exact this
  | _ => exact this

/-! ### non-trivial cases -/

/-- Two parts with maths, put together and moved; the bracket content moves along, the dollar content does not. -/
example : mathsFromChunks [.mk 1 (.text chars!"a $x$ "), .mk 1 (.scope (.mk [.mk 1 (.text chars!"$y$")] .curly))] = .ok
      [.mk 1 (.text chars!"a "), .mk 1 (.mathsBlock (.mk .dollars .inline [.mk 1 (.text chars!"x")])), .mk 1 (.text chars!" "),
        .mk 1 (.scope (.mk [.mk 1 (.mathsBlock (.mk .dollars .inline [.mk 1 (.text chars!"y")]))] .curly))] ∧
    mathsFromChunks [.mk 2 (.command (.mk chars!"(" [])), .mk 2 (.text chars!"\nz\n\nw"), .mk 5 (.command (.mk chars!")" []))] =
      .ok [.mk 2 (.mathsBlock (.mk .brackets .inline [.mk 2 (.text chars!"\nz"), .mk 3 (.paragraphBreak chars!"\n\n"), .mk 5 (.text chars!"w")]))] ∧
    moved 4 [.mk 2 (.mathsBlock (.mk .brackets .inline [.mk 2 (.text chars!"\nz"), .mk 3 (.paragraphBreak chars!"\n\n"), .mk 5 (.text chars!"w")]))] =
      [.mk 6 (.mathsBlock (.mk .brackets .inline [.mk 6 (.text chars!"\nz"), .mk 7 (.paragraphBreak chars!"\n\n"), .mk 9 (.text chars!"w")]))] := by
  refine ⟨?_, ?_, rfl⟩ <;> decide +kernel

/-- A document, and what follows it. -/
example : ∃ d e f g, Ast1.fromStr chars!"\\begin{document}\n$y$\\end{document}\nz " = .ok d ∧ Ast1.Complete d ∧
    Ast2.fromStr chars!"\\begin{document}\n$y$\\end{document}\nz " = .ok e ∧ (∃ x ∈ e, isBody x = true) ∧
    tryFrom e = .ok f ∧ f.trailing = [.mk 2 (.text chars!"\nz ")] ∧
    fromStr chars!"\\foo{}\n\nw" = .ok g ∧ g.preamable = [.mk 1 (.command (.mk chars!"foo" [([], .mk [] .curly)])),
      .mk 1 (.paragraphBreak chars!"\n\n"), .mk 3 (.text chars!"w")] := by
  have hd : Ast1.fromStr chars!"\\begin{document}\n$y$\\end{document}\nz " = .ok
    [.mk 1 (.command (.mk chars!"begin" [([], .mk [.mk 1 (.text chars!"document")] .curly)])), .mk 1 (.text chars!"\n$y$"),
      .mk 2 (.command (.mk chars!"end" [([], .mk [.mk 1 (.text chars!"document")] .curly)])), .mk 2 (.text chars!"\nz ")] := by
    decide +kernel
  have he : Ast2.fromStr chars!"\\begin{document}\n$y$\\end{document}\nz " = .ok
    [.mk 1 (.environment (.mk chars!"document" [] [.mk 1 (.text chars!"\n$y$")] [] [])), .mk 2 (.text chars!"\nz ")] := by
    decide +kernel
  refine ⟨_, _, ⟨none, [], [], [.mk 1 (.text chars!"\n"), .mk 2 (.mathsBlock (.mk .dollars .inline [.mk 1 (.text chars!"y")]))],
      [], [], [], [.mk 2 (.text chars!"\nz ")]⟩,
    ⟨none, [], [.mk 1 (.command (.mk chars!"foo" [([], .mk [] .curly)])), .mk 1 (.paragraphBreak chars!"\n\n"),
      .mk 3 (.text chars!"w")], [], [], [], [], []⟩,
    hd, ⟨?_, ?_⟩, he, ⟨_, List.mem_cons_self .., rfl⟩, by decide +kernel, rfl, by decide +kernel, rfl⟩
  · rintro ⟨init, l, c, r, args, h, _⟩
    have := congrArg List.getLast? h
    simp at this
  · rintro ⟨init, l, t, h1, h2, _⟩
    have := congrArg List.getLast? h1
    simp only [List.getLast?_append, List.getLast?_singleton] at this
    simp at this
    obtain ⟨_, rfl⟩ := this
    exact absurd (h2 'z' (by decide)) (by decide)

end LatexAst.Ast3
