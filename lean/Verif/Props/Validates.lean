import Verif.Proofs.ExactLines2
import Verif.Props.Sharp
import Verif.Props.Documents
import Verif.Props.Building

/-!
# Which parsed documents validate (C79, C94), and the exact line numbers of stage 2 (C84)
-/

namespace LatexAst.Ast1
open Spec

theorem numbered_parsed {s d} (h : fromStr s = .ok d) : NumberedFrom 1 d ↔
    (∀ l args, .mk l (.command (.mk ['\n'] args)) ∉ d) ∧
    (∀ init l t, d = init ++ [.mk l (.text t)] → Blank t → EndsWithLetterCommand init → '\n' ∉ t) := by
  constructor
  · intro hn
    constructor
    · intro l args hm
      obtain ⟨pre, post, rfl⟩ := List.append_of_mem hm
      have h1 := hn pre _ post rfl
      have h2 := (C78 s _ h _ .top pre post _ rfl).1 ⟨args, rfl⟩
      omega
    · rintro init l t rfl hb he hm
      have h1 := hn init _ [] rfl
      have h2 := (C78 s _ h _ .top init [] _ rfl).2.1 t rfl rfl hb he
      have := List.count_pos_iff.2 hm
      omega
  · rintro ⟨h1, h2⟩ pre c post he
    obtain ⟨g1, g2, g3⟩ := C78 s d h d .top pre post c he
    by_cases hc : ∃ args, c.variant = .command (.mk ['\n'] args)
    · obtain ⟨args, hv⟩ := hc
      obtain ⟨l, v⟩ := c
      simp only [Chunk.variant] at hv
      subst hv
      exact absurd (by simp [he]) (h1 l args)
    · by_cases ht : ∃ t, c.variant = .text t ∧ post = [] ∧ Blank t ∧ EndsWithLetterCommand pre
      · obtain ⟨t, hv, rfl, hb, hl⟩ := ht
        have := g2 t hv rfl hb hl
        obtain ⟨l, v⟩ := c
        simp only [Chunk.variant] at hv
        subst hv
        rw [this, List.count_eq_zero.2 (h2 pre l t he hb hl)]; rfl
      · exact g3 hc ht

/-- C79, without line numbers: a parsed document validates if and only if no top-level command is `\`+newline, its last
chunk is not a blank text with a newline after a letter command, and no text at any depth contains a closing bracket. -/
theorem C79_structure (s : Str) (d : Document) (h : fromStr s = .ok d) :
    Document.validate d = .ok () ↔
      (∀ l args, .mk l (.command (.mk ['\n'] args)) ∉ d) ∧
      (∀ init l t, d = init ++ [.mk l (.text t)] → Blank t → EndsWithLetterCommand init → '\n' ∉ t) ∧
      ∀ t, Within d (.text t) → ∀ x ∈ t, x ∉ ['}', ']', ')'] := by
  rw [C79 s d h, numbered_parsed h, and_assoc]

/-- Each of the three conditions can fail alone. -/
theorem C79_structure_example :
    (fromStr chars!"\\\nx").toOption.map (fun d => (Document.validate d).isOk) = some false ∧
    (fromStr chars!"\\foo\n").toOption.map (fun d => (Document.validate d).isOk) = some false ∧
    (fromStr chars!"{a)}").toOption.map (fun d => (Document.validate d).isOk) = some false ∧
    (fromStr chars!"\\foo{\\\n\\foo\n}\nx").toOption.map (fun d => (Document.validate d).isOk) = some true := by
  decide +kernel

end LatexAst.Ast1

namespace LatexAst.Ast2
open Spec

/-- C84, every chunk: in a parsed stage-2 document every sequence is numbered from 1 by the newlines printed before the
chunk, except: the command `\`+newline is numbered one line late; an environment by the newlines before and in the arguments
of its `\begin`; and a blank text at the end of a sequence that is not the content of an environment, after a letter
command or an environment, is numbered with its last line. -/
theorem C84_exact (s : Str) (e : Document) (h : fromStr s = .ok e) (inEnv : Bool) (lv : List Chunk)
    (hl : Sequence e inEnv lv) (pre : List Chunk) (c : Chunk) (post : List Chunk) (he : lv = pre ++ c :: post) :
    ((∃ args, c.variant = .command (.mk ['\n'] args)) → c.lineNo = 1 + (displayChunks pre).count '\n' + 1) ∧
    (∀ label args content pb pe, c.variant = .environment (.mk label args content pb pe) →
      c.lineNo = 1 + (displayChunks pre).count '\n' + (pb ++ label ++ displayArgs args).count '\n') ∧
    (∀ t, c.variant = .text t → inEnv = false → post = [] → Blank t → EndsWithCommand pre →
      c.lineNo = 1 + (displayChunks pre).count '\n' + t.count '\n') ∧
    ((¬ ∃ args, c.variant = .command (.mk ['\n'] args)) → (¬ ∃ x, c.variant = .environment x) →
      (¬ ∃ t, c.variant = .text t ∧ inEnv = false ∧ post = [] ∧ Blank t ∧ EndsWithCommand pre) →
      c.lineNo = 1 + (displayChunks pre).count '\n') := by
  unfold fromStr at h
  cases hd : Ast1.fromStr s with
  | error f => rw [hd] at h; cases h
  | ok d =>
    rw [hd] at h
    have := exact2_tryFrom h (Ast1.exact1_parsed hd) inEnv lv hl pre c post he
    simpa only [newlines_eq_count] using this

/-- The three exceptions occur, and the blank text inside an environment is none. -/
theorem C84_exact_example :
    (fromStr chars!"\\begin\n{a}\\foo\n\\end{a}x\\\n\\foo\n\n").toOption =
      some [.mk 2 (.environment (.mk chars!"a" [] [.mk 1 (.command (.mk chars!"foo" [])), .mk 1 (.text chars!"\n")]
          chars!"\n" [])),
        .mk 3 (.text chars!"x"), .mk 4 (.command (.mk chars!"\n" [])), .mk 4 (.command (.mk chars!"foo" [])), .mk 6 (.text chars!"\n\n")] := by
  decide +kernel

theorem numbered_parsed {s e} (h : fromStr s = .ok e) : NumberedFrom 1 e ↔
    (∀ l args, .mk l (.command (.mk ['\n'] args)) ∉ e) ∧
    (∀ l label args content pb pe, .mk l (.environment (.mk label args content pb pe)) ∈ e →
      '\n' ∉ pb ++ label ++ displayArgs args) ∧
    (∀ init l t, e = init ++ [.mk l (.text t)] → Blank t → EndsWithCommand init → '\n' ∉ t) := by
  constructor
  · intro hn
    refine ⟨?_, ?_, ?_⟩
    · intro l args hm
      obtain ⟨pre, post, rfl⟩ := List.append_of_mem hm
      have h1 := hn pre _ post rfl
      have h2 := (C84_exact s _ h _ _ .top pre _ post rfl).1 ⟨args, rfl⟩
      omega
    · intro l label args content pb pe hm hx
      obtain ⟨pre, post, rfl⟩ := List.append_of_mem hm
      have h1 := hn pre _ post rfl
      have h2 := (C84_exact s _ h _ _ .top pre _ post rfl).2.1 _ _ _ _ _ rfl
      have := List.count_pos_iff.2 hx
      omega
    · rintro init l t rfl hb he hm
      have h1 := hn init _ [] rfl
      have h2 := (C84_exact s _ h _ _ .top init _ [] rfl).2.2.1 t rfl rfl rfl hb he
      have := List.count_pos_iff.2 hm
      omega
  · rintro ⟨h1, h2, h3⟩ pre c post he
    obtain ⟨g1, g2, g3, g4⟩ := C84_exact s e h _ _ .top pre c post he
    by_cases hc : ∃ args, c.variant = .command (.mk ['\n'] args)
    · obtain ⟨args, hv⟩ := hc
      obtain ⟨l, v⟩ := c
      simp only [Chunk.variant] at hv
      subst hv
      exact absurd (by simp [he]) (h1 l args)
    · by_cases hx : ∃ x, c.variant = .environment x
      · obtain ⟨⟨label, args, content, pb, pe⟩, hv⟩ := hx
        have := g2 _ _ _ _ _ hv
        obtain ⟨l, v⟩ := c
        simp only [Chunk.variant] at hv
        subst hv
        rw [this, List.count_eq_zero.2 (h2 l label args content pb pe (by simp [he]))]; rfl
      · by_cases ht : ∃ t, c.variant = .text t ∧ post = [] ∧ Blank t ∧ EndsWithCommand pre
        · obtain ⟨t, hv, rfl, hb, hl⟩ := ht
          have := g3 t hv rfl rfl hb hl
          obtain ⟨l, v⟩ := c
          simp only [Chunk.variant] at hv
          subst hv
          rw [this, List.count_eq_zero.2 (h3 pre l t he hb hl)]; rfl
        · exact g4 hc hx (by rintro ⟨t, a, _, b, c, d⟩; exact ht ⟨t, a, b, c, d⟩)

/-- What the labels of a parsed stage-1 document are made of. -/
theorem nodes_fine {s e} (h : fromStr s = .ok e) :
    (∀ t, Within e (.text t) → ∀ x ∈ t, x ∉ ['\\', '%', '{', '[', '(']) ∧
    (∀ label args, Within e (.command (.mk label args)) → Spec.utf8Length label ≠ 1 → Sanitised label) := by
  unfold fromStr at h
  cases hd : Ast1.fromStr s with
  | error f => rw [hd] at h; cases h
  | ok d =>
    rw [hd] at h
    let P2 : ChunkVariant → Prop := fun v =>
      (∀ t, v = .text t → ∀ x ∈ t, x ∉ ['\\', '%', '{', '[', '(']) ∧
      (∀ label args, v = .command (.mk label args) → Spec.utf8Length label ≠ 1 → Sanitised label)
    let P1 : Ast1.ChunkVariant → Prop := fun v =>
      (∀ t, v = .text t → ∀ x ∈ t, x ∉ ['\\', '%', '{', '[', '(']) ∧
      (∀ label args, v = .command (.mk label args) → Spec.utf8Length label ≠ 1 → Sanitised label)
    have hP1 : Ast1.AllChunks P1 d := by
      refine (Ast1.allChunks_iff d).2 fun v hv => ?_
      obtain ⟨lv, l, hl, hm⟩ := Ast1.within_level hv
      obtain ⟨c1, _, c3, _⟩ := Ast1.C09 s d hd lv hl
      constructor
      · rintro t rfl; exact (c1 l t hm).2
      · rintro label args rfl hu
        rcases c3 l label args hm with ⟨⟨c, r, rfl, ha, hr⟩, _⟩ | ⟨c, rfl, ha, rfl⟩
        · intro x hx
          rw [List.mem_cons] at hx
          rcases hx with rfl | hx
          · simp only [Special, List.mem_cons, List.not_mem_nil, or_false]
            rintro (rfl | rfl | rfl | rfl | rfl | rfl | rfl | rfl) <;> revert ha <;> decide
          · exact (hr x hx).2
        · intro x hx
          rw [List.mem_singleton] at hx; subst hx
          simp only [Special, List.mem_cons, List.not_mem_nil, or_false]
          rintro (rfl | rfl | rfl | rfl | rfl | rfl | rfl | rfl) <;>
            exact hu (by decide)
    have hP2 : AllChunks P2 e := by
      refine carry_tryFrom (P1 := P1) ⟨?_, ?_, ?_, ?_⟩ h hP1
      · intro t ht
        exact ⟨fun t' hh => by cases hh; exact ht.1 _ rfl, fun _ _ hh => by cases hh⟩
      · intro _ _ _ _
        refine ⟨?_, ?_⟩
        · intro _ hh; cases hh
        · intro _ _ hh; cases hh
      · intro label args args' _ _ hh _
        refine ⟨?_, ?_⟩
        · intro _ hh; cases hh
        · intro l a hh'; cases hh'; exact hh.2 _ _ rfl
      · intro _ _ _ _ _ _ _ _ _
        refine ⟨?_, ?_⟩
        · intro _ hh; cases hh
        · intro _ _ hh; cases hh
    have hP2 := (allChunks_iff e).1 hP2
    exact ⟨fun t hw => (hP2 _ hw).1 t rfl, fun label args hw => (hP2 _ hw).2 label args rfl⟩

/-- C94: a parsed stage-2 document validates if and only if its top-level chunks are numbered by the newlines printed
before them, no text at any depth contains a closing bracket and no environment label a special character. -/
theorem C94 (s : Str) (e : Document) (h : fromStr s = .ok e) :
    Document.validate e = .ok () ↔ NumberedFrom 1 e ∧
      (∀ t, Within e (.text t) → ∀ x ∈ t, x ∉ ['}', ']', ')']) ∧
      (∀ label args content pb pe, Within e (.environment (.mk label args content pb pe)) → Sanitised label) := by
  rw [C18, Valid]
  refine and_congr Iff.rfl ⟨?_, ?_⟩
  · intro hv
    refine ⟨fun t ht x hx hc => ?_, fun label args content pb pe hw => hv _ hw⟩
    have := hv _ ht x hx
    apply this
    simp only [Special, List.mem_cons, List.not_mem_nil, or_false] at hc ⊢
    grind
  · rintro ⟨h1, h2⟩ v hw
    cases v with
    | text t =>
      intro x hx
      have g1 := (nodes_fine h).1 t hw x hx
      have g2 := h1 t hw x hx
      simp only [Special, List.mem_cons, List.not_mem_nil, or_false] at g1 g2 ⊢
      grind
    | scope => trivial
    | command c =>
      obtain ⟨label, args⟩ := c
      have hh := h
      unfold fromStr at hh
      cases hd : Ast1.fromStr s with
      | error f => rw [hd] at hh; cases hh
      | ok d =>
        rw [hd] at hh
        obtain ⟨a, b⟩ := C22 d e hh label args hw
        exact ⟨a, b, (nodes_fine h).2 label args hw⟩
    | environment x => obtain ⟨label, args, content, pb, pe⟩ := x; exact h2 _ _ _ _ _ hw

/-- C94, without line numbers: a parsed stage-2 document validates if and only if no top-level command is `\`+newline, no
top-level `\begin` has a newline before or in its arguments, the last chunk is not a blank text with a newline after a letter
command or an environment, no text contains a closing bracket and no environment label a special character. -/
theorem C94_structure (s : Str) (e : Document) (h : fromStr s = .ok e) :
    Document.validate e = .ok () ↔
      ((∀ l args, .mk l (.command (.mk ['\n'] args)) ∉ e) ∧
       (∀ l label args content pb pe, .mk l (.environment (.mk label args content pb pe)) ∈ e →
         '\n' ∉ pb ++ label ++ displayArgs args) ∧
       (∀ init l t, e = init ++ [.mk l (.text t)] → Blank t → EndsWithCommand init → '\n' ∉ t)) ∧
      (∀ t, Within e (.text t) → ∀ x ∈ t, x ∉ ['}', ']', ')']) ∧
      (∀ label args content pb pe, Within e (.environment (.mk label args content pb pe)) → Sanitised label) := by
  rw [C94 s e h, numbered_parsed h]

/-- Each condition can fail alone (an environment at the end of the file followed by a newline already does). -/
theorem C94_example :
    (fromStr chars!"\\\nx").toOption.map (fun d => (Document.validate d).isOk) = some false ∧
    (fromStr chars!"\\begin\n{a}\\end{a}").toOption.map (fun d => (Document.validate d).isOk) = some false ∧
    (fromStr chars!"\\begin{a}\\end{a}\n").toOption.map (fun d => (Document.validate d).isOk) = some false ∧
    (fromStr chars!"{a)}").toOption.map (fun d => (Document.validate d).isOk) = some false ∧
    (fromStr chars!"\\begin{\\a}\\end{\\a}").toOption.map (fun d => (Document.validate d).isOk) = some false ∧
    (fromStr chars!"{\\\n}\\begin{a}\n\\begin\n{b}\\end{b}\n\\end{a}\nx").toOption.map
      (fun d => (Document.validate d).isOk) = some true := by
  decide +kernel

end LatexAst.Ast2

namespace LatexAst.Ast3
open Spec

/-- Commands of a parsed stage-3 document. -/
theorem commands_fine {s f} (h : fromStr s = .ok f) (sec : Section) (label : Str) (args : List (Str × Scope))
    (hw : Within (sec.get f) (.command (.mk label args))) :
    label ≠ chars!"begin" ∧ label ≠ chars!"end" ∧ (Spec.utf8Length label ≠ 1 → Sanitised label) := by
  obtain ⟨d, e, h1, h2, h2', h3⟩ := fromStr_ok h
  let Q : Str → Prop := fun label => label ≠ chars!"begin" ∧ label ≠ chars!"end" ∧ (Spec.utf8Length label ≠ 1 → Sanitised label)
  have he : Ast2.AllChunks (fun v => ∀ label args, v = .command (.mk label args) → Q label) e := by
    refine (Ast2.allChunks_iff e).2 ?_
    rintro v hv label args rfl
    obtain ⟨a, b⟩ := Ast2.C22 d e h2 label args hv
    exact ⟨a, b, (Ast2.nodes_fine (s := s) (by simp [Ast2.fromStr, h1, h2])).2 label args hv⟩
  have hc : Carries (fun _ => True) (fun v => ∀ label args, v = .command (.mk label args) → Q label)
      (fun v => ∀ label args, v = .command (.mk label args) → Q label) := by
    refine ⟨?_, ?_, ?_, ?_, ?_, ?_, ?_⟩
    · intro t; simp
    · intro _ _ _ _ _ _ hh; cases hh
    · intro label args args' hh _ label' args'' h'; cases h'; exact hh _ _ rfl
    · intro _ _ _ _ _ _ _ _ _ _ hh; cases hh
    · intro _ _ _ _ _ hh; cases hh
    · intro _ _ _ _ _ hh; cases hh
    · intro _ _ _ _ _ hh; cases hh
  obtain ⟨g1, g2, _, g4⟩ := nodes_tryFrom hc he h3
  cases sec with
  | preamable => exact (allChunks_iff _).1 g1 _ hw _ _ rfl
  | body => exact (allChunks_iff _).1 g2 _ hw _ _ rfl
  | trailing => exact (allChunks_iff _).1 g4 _ hw _ _ rfl

/-- C95: a parsed stage-3 document validates if and only if the top-level chunks of each section are numbered, from 1, by
the newlines printed before them in that section, no text at any depth contains a closing bracket and no environment label a
special character. -/
theorem C95 (s : Str) (f : Document) (h : fromStr s = .ok f) :
    f.validate = .ok () ↔ ∀ sec : Section,
      NumberedFrom 1 (sec.get f) ∧
      (∀ t, Within (sec.get f) (.text t) → ∀ x ∈ t, x ∉ ['}', ']', ')']) ∧
      (∀ label args content pb pe, Within (sec.get f) (.environment (.mk label args content pb pe)) → Sanitised label) := by
  have key : ∀ sec : Section, ValidSection (sec.get f) ↔ NumberedFrom 1 (sec.get f) ∧
      (∀ t, Within (sec.get f) (.text t) → ∀ x ∈ t, x ∉ ['}', ']', ')']) ∧
      (∀ label args content pb pe, Within (sec.get f) (.environment (.mk label args content pb pe)) → Sanitised label) := by
    intro sec
    have h50 := C50 s f h (sec.get f) (by cases sec <;> simp [Section.get])
    rw [ValidSection]
    refine and_congr Iff.rfl ⟨?_, ?_⟩
    · intro hv
      refine ⟨fun t ht x hx hc => ?_, fun label args content pb pe hw => hv _ hw⟩
      have := (hv _ ht).1 x hx
      apply this
      simp only [Special, List.mem_cons, List.not_mem_nil, or_false] at hc ⊢
      grind
    · rintro ⟨h1, h2⟩ v hw
      cases v with
      | text t =>
        obtain ⟨_, _, k1, k2⟩ := h50.1 t hw
        refine ⟨fun x hx => ?_, k1⟩
        have g1 := k2 x hx
        have g2 := h1 t hw x hx
        simp only [Special, List.mem_cons, List.not_mem_nil, or_false] at g1 g2 ⊢
        grind
      | scope => trivial
      | mathsBlock => trivial
      | paragraphBreak b => exact (h50.2 b hw).2
      | command c => obtain ⟨label, args⟩ := c; exact commands_fine h sec label args hw
      | environment x => obtain ⟨label, args, content, pb, pe⟩ := x; exact h2 _ _ _ _ _ hw
  rw [C18]
  constructor
  · rintro ⟨h1, h2, h3⟩ sec
    refine (key sec).1 ?_
    cases sec with
    | preamable => exact h1
    | body => exact h2
    | trailing => exact h3
  · intro hh
    exact ⟨(key .preamable).2 (hh .preamable), (key .body).2 (hh .body), (key .trailing).2 (hh .trailing)⟩

/-- A document whose body and preamble span several lines validates; with anything after it on another line it does not, and
neither does one with a break of three newlines followed by text (numbered too late). -/
theorem C95_example :
    (fromStr chars!"\\documentclass{a}\n\\begin{document}\nx\n\ny $a$\n\\end{document}").toOption.map
      (fun d => d.validate.isOk) = some true ∧
    (fromStr chars!"\\documentclass{a}\n\\begin{document}\nx\n\ny\n\\end{document} z").toOption.map
      (fun d => d.validate.isOk) = some false ∧
    (fromStr chars!"x\n\n\ny").toOption.map (fun d => d.validate.isOk) = some false ∧
    (fromStr chars!"x ) y").toOption.map (fun d => d.validate.isOk) = some false ∧
    (fromStr chars!"\\begin{\\a}\\end{\\a}").toOption.map (fun d => d.validate.isOk) = some false := by
  decide +kernel

end LatexAst.Ast3
