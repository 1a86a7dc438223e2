import Verif.Props.ReadBack3
import Verif.Props.Sections
import Verif.Proofs.Near

/-!
# C35 and C72, exactly: which sources stage 3 prints back, which documents are read back
-/

namespace LatexAst.Spec

theorem strip_count_pct : ∀ s : Str, (stripComments s).count '%' ≤ s.count '%' ∧
    ((stripComments s).count '%' = s.count '%' → stripComments s = s) ∧ (skipComment s).count '%' ≤ s.count '%'
  | [] => by simp [stripComments, skipComment]
  | c :: cs => by
    have ih := strip_count_pct cs
    have hskip : (skipComment (c :: cs)).count '%' ≤ (c :: cs).count '%' := by
      by_cases hn : c = '\n'
      · subst hn; simp [skipComment]; exact ih.1
      · have : skipComment (c :: cs) = skipComment cs := by
          rw [skipComment]; exact hn
        rw [this]; exact Nat.le_trans ih.2.2 (by simp [List.count_cons])
    refine ⟨?_, ?_, hskip⟩
    · by_cases h1 : c = '%'
      · subst h1; simp [stripComments]; have := ih.2.2; omega
      by_cases h2 : c = '\\'
      · subst h2
        cases cs with
        | nil => simp [stripComments]
        | cons x cs =>
          have ih2 := strip_count_pct cs
          simp [stripComments, List.count_cons]; exact ih2.1
      · have : stripComments (c :: cs) = c :: stripComments cs := by
          rw [stripComments]
          · exact h1
          · intro x y h; exact fun _ => h2 (by simpa using h)
        rw [this]; simp [List.count_cons]; exact ih.1
    · by_cases h1 : c = '%'
      · subst h1; simp [stripComments]; have := ih.2.2; intro h; omega
      by_cases h2 : c = '\\'
      · subst h2
        cases cs with
        | nil => simp [stripComments]
        | cons x cs =>
          have ih2 := strip_count_pct cs
          simp [stripComments, List.count_cons]; exact ih2.2.1
      · have : stripComments (c :: cs) = c :: stripComments cs := by
          rw [stripComments]
          · exact h1
          · intro x y h; exact fun _ => h2 (by simpa using h)
        rw [this]; simp [List.count_cons]; exact ih.2.1

end LatexAst.Spec

namespace LatexAst.Ast2
open Spec

/-- In a parsed document only blanks stand between `\begin` or `\end` and the label of an environment. -/
theorem envBlanks_parsed {s e} (h : fromStr s = .ok e) :
    AllChunks (fun v => ∀ label args content pb pe, v = .environment (.mk label args content pb pe) → Blank pb ∧ Blank pe) e := by
  unfold fromStr at h
  cases hd : Ast1.fromStr s with
  | error f => rw [hd] at h; cases h
  | ok d =>
    rw [hd] at h
    refine carry_tryFrom (P1 := fun v => ∀ label args, v = .command (.mk label args) → ∀ p sc, (p, sc) ∈ args → Blank p)
      ⟨?_, ?_, ?_, ?_⟩ h (nodes_parsed1 hd ?_)
    · intro t _ _ _ _ _ _ h; simp at h
    · intro _ _ _ _ _ _ _ _ _ h; simp at h
    · intro _ _ _ _ _ _ _ _ _ _ _ _ h; simp at h
    · intro p lab args p' args' content h1 h2 h3 label a c pb pe h4
      simp only [ChunkVariant.environment.injEq, Environment.mk.injEq] at h4
      obtain ⟨_, _, _, rfl, rfl⟩ := h4
      exact ⟨h1 _ _ rfl _ _ (.head _), h2 _ _ rfl _ _ (.head _)⟩
    · intro l v hn label args he
      subst he
      rcases hn with h | ⟨c, _, _, rfl⟩
      · exact h.2
      · intro p sc hm; cases hm

end LatexAst.Ast2

namespace LatexAst.Ast3
open Spec

theorem isBody_iff {c : Ast2.Chunk} : isBody c = true ↔
    ∃ l args content pb pe, c = .mk l (.environment (.mk chars!"document" args content pb pe)) := by
  obtain ⟨l, v⟩ := c
  constructor
  · intro h
    unfold isBody at h
    split at h
    · rename_i h1
      cases h1
      simp only [beq_iff_eq] at h
      subst h
      exact ⟨_, _, _, _, _, rfl⟩
    · cases h
  · rintro ⟨_, _, _, _, _, h⟩
    rw [h]; rfl

theorem count_parts (a : Char) (e : List Ast2.Chunk) :
    (Ast2.displayChunks e).count a = (Ast2.displayChunks (preambleOf e)).count a +
      (Ast2.displayChunks (trailingOf e)).count a + (Ast2.displayChunks (bodiesOf e)).count a := by
  have key : ∀ x : List Ast2.Chunk, (Ast2.displayChunks x).count a =
      (Ast2.displayChunks (x.filter fun c => !isBody c)).count a + (Ast2.displayChunks (x.filter isBody)).count a := by
    intro x
    induction x with
    | nil => rfl
    | cons c x ih =>
      simp only [Ast2.displayChunks, List.count_append, ih]
      cases hb : isBody c <;> simp [hb, Ast2.displayChunks] <;> omega
  have h1 : (preambleOf e).filter isBody = [] := by
    rw [List.filter_eq_nil_iff]
    intro c hc
    have := List.all_eq_true.1 (List.all_takeWhile (l := e) (p := fun c => !isBody c)) c hc
    simpa using this
  have h2 : bodiesOf e = (e.dropWhile fun c => !isBody c).filter isBody := by
    conv => lhs; rw [bodiesOf, ← List.takeWhile_append_dropWhile (p := fun c => !isBody c) (l := e)]
    rw [List.filter_append]
    show (preambleOf e).filter isBody ++ _ = _
    rw [h1]; rfl
  have h3 := key (e.dropWhile fun c => !isBody c)
  conv => lhs; rw [← List.takeWhile_append_dropWhile (p := fun c => !isBody c) (l := e)]
  rw [display2_append, List.count_append, h3, h2]
  show (Ast2.displayChunks (preambleOf e)).count a + _ = _
  rw [trailingOf]
  omega

/-- How often a character is printed at stage 3 and at stage 2, with any number of document environments. -/
theorem display_counts {s e f} (hs : Ast2.fromStr s = .ok e) (h : tryFrom e = .ok f) (a : Char) :
    (bodiesOf e = [] ∧ Kept a (f.display.count a) ((Ast2.displayChunks e).count a + (chars!"\\begin{document}\\end{document}").count a)) ∨
    ∃ x l args content pb pe, bodiesOf e = x ++ [.mk l (.environment (.mk chars!"document" args content pb pe))] ∧
      Blank pb ∧ Blank pe ∧
      Kept a (f.display.count a + (Ast2.displayChunks x).count a + pe.count a) ((Ast2.displayChunks e).count a + pb.count a) := by
  have hb := Ast2.bareDelims_parsed hs
  have hbl := Ast2.envBlanks_parsed hs
  have kept : ∀ cs out, Ast2.AllChunks BareDelims cs → mathsFromChunks cs = .ok out →
      Kept a ((displayChunks out).count a) ((Ast2.displayChunks cs).count a) := by
    intro cs out hcs ho
    have := post_fromChunks (cs := cs) (E := fun _ => True) fun n => (mathsCount a n cs hcs).mono (fun _ h => h) (fun _ _ => .inr trivial)
    rw [ho] at this
    exact this
  rw [Ast2.allChunks_iff_forall] at hb hbl
  have hsub : ∀ cs : List Ast2.Chunk, (∀ c ∈ cs, c ∈ e) → Ast2.AllChunks BareDelims cs := by
    intro cs hcs
    rw [Ast2.allChunks_iff_forall]
    exact fun c hc => hb c (hcs c hc)
  have hp := count_parts a e
  cases (C57 _ _).1 h with
  | @document fpre fpost fargs fcontent fpb fpe fopts _ _ hpre htr hbd _ =>
    have k1 := kept (preambleOf e) _ (hsub _ fun c hc => (List.takeWhile_sublist _).subset hc) (becomes_iff.1 hpre)
    have k2 := kept (trailingOf e) _ (hsub _ fun c hc => (List.dropWhile_sublist _).subset (List.filter_sublist.subset hc)) (becomes_iff.1 htr)
    rw [display_document]
    cases hbd with
    | none hn =>
      refine .inl ⟨hn, ?_⟩
      rw [hn] at hp
      simp only [Ast2.displayChunks, List.count_nil] at hp
      have g1 := k1.1; have g2 := k2.1
      simp only [displayArgs, displayChunks, List.append_nil, List.count_append]
      refine ⟨by simp [List.count_cons]; omega, fun hd => ?_⟩
      have g1 := k1.2 hd; have g2 := k2.2 hd
      simp [List.count_cons]; omega
    | @last x c l env hl hc =>
      have hm : c ∈ e ∧ isBody c = true := by
        have : c ∈ bodiesOf e := by rw [hl]; simp
        simpa [bodiesOf] using this
      obtain ⟨l, args, content, pb, pe, rfl⟩ := isBody_iff.1 hm.2
      refine .inr ⟨x, l, args, content, pb, pe, hl, ?_⟩
      obtain ⟨args', cs, g1, g2, g3⟩ := maths_environment_ok (becomes_iff.1 hc)
      cases g3
      rw [fixed_paragraphs g2]
      obtain ⟨_, hb2, hb3⟩ := hb _ hm.1
      obtain ⟨hbl1, _, _⟩ := hbl _ hm.1
      obtain ⟨b1, b2⟩ := hbl1 _ _ _ _ _ rfl
      refine ⟨b1, b2, ?_⟩
      have k3 := kept _ _ hb3 g2
      have k4 : Kept a ((displayArgs fargs).count a) ((Ast2.displayArgs args).count a) := by
        refine displayArgs_rel3 g1 (F := fun x y => Kept a (x.count a) (y.count a)) ⟨Nat.le_refl _, fun _ => rfl⟩ ?_ ?_
        · intro p sv x y r r' g1 g2
          constructor
          · have := g1.1; have := g2.1
            simp [List.count_cons]; omega
          · intro hd
            have := g1.2 hd; have := g2.2 hd
            simp [List.count_cons]; omega
        · intro p inner sv out hm ho
          exact kept _ _ ((Ast2.allArgs_iff_forall _).1 hb2 _ hm) ho
      rw [hl, display2_append, List.count_append, Ast2.displayChunks, display_body2] at hp
      simp only [Ast2.displayChunks, List.count_append, List.append_nil] at hp ⊢
      have g1 := k1.1; have g2 := k2.1; have g3 := k3.1; have g4 := k4.1
      refine ⟨by omega, fun hd => ?_⟩
      have g1 := k1.2 hd; have g2 := k2.2 hd; have g3 := k3.2 hd; have g4 := k4.2 hd
      omega

theorem count_visible {s d} (h : Ast1.fromStr s = .ok d) {a : Char} (ha : ¬ Bracket a ∧ a ≠ '\\') :
    (Ast1.displayChunks d).count a = (stripComments s).count a := by
  have h1 := congrArg (List.count a) (Ast1.C04 s d h)
  unfold visible at h1
  rw [List.count_filter (by simpa using ha), List.count_filter (by simpa using ha)] at h1
  exact h1

/-- A source that is printed back by stage 3 has no comments, is printed back by stage 1, and has one document
environment. -/
theorem printsBack_one {s d e f} (hd : Ast1.fromStr s = .ok d) (he : Ast2.tryFrom d = .ok e) (hf : tryFrom e = .ok f)
    (h : f.display = s) : Ast1.displayChunks d = s ∧
      ∃ pre post l args content pb, e = pre ++ .mk l (.environment (.mk chars!"document" args content pb pb)) :: post ∧
        (∀ c ∈ pre, isBody c = false) ∧ ∀ c ∈ post, isBody c = false := by
  have hs : Ast2.fromStr s = .ok e := by unfold Ast2.fromStr; rw [hd]; exact he
  have hp : Ast2.displayChunks e = Ast1.displayChunks d := Ast2.display_tryFrom he
  have hnear := Ast1.fromStr_near hd
  have hcount := display_counts hs hf
  rw [hp, h] at hcount
  -- no comments
  have hstrip : stripComments s = s := by
    refine (strip_count_pct s).2.1 (Nat.le_antisymm (strip_count_pct s).1 ?_)
    rw [← count_visible hd (a := '%') (by decide)]
    rcases hcount '%' with ⟨_, h1⟩ | ⟨x, l, args, content, pb, pe, _, b1, _, h1⟩
    · have := h1.1; simpa using this
    · have h2 : pb.count '%' = 0 := List.count_eq_zero.2 fun hm => absurd (b1 _ hm) (by decide)
      have := h1.1; omega
  have hvis : ∀ a : Char, ¬ Bracket a ∧ a ≠ '\\' → (Ast1.displayChunks d).count a = s.count a := by
    intro a ha
    rw [count_visible hd ha, hstrip]
  have hkept : ∀ a : Char, ¬ Bracket a ∧ a ≠ '\\' → ¬ DelimChar a := by
    intro a ha
    unfold Bracket at ha
    unfold DelimChar
    grind
  -- one body
  have hone : ∃ l args content pb pe, bodiesOf e = [.mk l (.environment (.mk chars!"document" args content pb pe))] ∧ Blank pb ∧ Blank pe := by
    have hv := hvis 'd' (by decide)
    rcases hcount 'd' with ⟨_, h1⟩ | ⟨x, l, args, content, pb, pe, hb, b1, b2, h1⟩
    · have := h1.2 (hkept 'd' (by decide))
      simp at this
      omega
    · have h2 : pb.count 'd' = 0 := List.count_eq_zero.2 fun hm => absurd (b1 _ hm) (by decide)
      have h3 : pe.count 'd' = 0 := List.count_eq_zero.2 fun hm => absurd (b2 _ hm) (by decide)
      have h4 := h1.2 (hkept 'd' (by decide))
      have h5 : (Ast2.displayChunks x).count 'd' = 0 := by omega
      cases x with
      | nil => exact ⟨l, args, content, pb, pe, hb, b1, b2⟩
      | cons c x =>
        have hc : isBody c = true := by
          have : c ∈ bodiesOf e := by rw [hb]; simp
          exact (List.mem_filter.1 this).2
        obtain ⟨_, _, _, _, _, rfl⟩ := isBody_iff.1 hc
        rw [Ast2.displayChunks, display_body2] at h5
        simp at h5
  obtain ⟨l, args, content, pb, pe, hb, b1, b2⟩ := hone
  obtain ⟨pre, post, rfl, hpre, -, hpost⟩ := List.filter_eq_cons_iff.1 hb
  rw [List.filter_eq_nil_iff] at hpost
  have hpre : ∀ c ∈ pre, isBody c = false := fun c hc => by simpa using hpre c hc
  have hpost : ∀ c ∈ post, isBody c = false := fun c hc => by simpa using hpost c hc
  have hone : ∀ a, Kept a (s.count a + pe.count a) ((Ast1.displayChunks d).count a + pb.count a) := by
    intro a
    rcases hcount a with ⟨hn, _⟩ | ⟨x, l', args', content', pb', pe', hb', _, _, h1⟩
    · rw [hn] at hb; cases hb
    · rw [hb] at hb'
      obtain ⟨hx, hc⟩ := List.append_inj' (show [] ++ [_] = x ++ [_] from hb') rfl
      subst hx
      cases hc
      simpa [Ast2.displayChunks] using h1
  -- same blanks
  have hperm : pb.length = pe.length := by
    refine List.Perm.length_eq (List.perm_iff_count.2 fun a => ?_)
    by_cases ha : ¬ Bracket a ∧ a ≠ '\\'
    · have h1 := (hone a).2 (hkept a ha)
      have h2 := hvis a ha
      omega
    · have hw : isWhitespace a = false := by
        unfold Bracket at ha
        have : a ∈ ['{', '}', '[', ']', '(', ')', '\\'] := by grind
        simp only [List.mem_cons, List.not_mem_nil, or_false] at this
        rcases this with rfl | rfl | rfl | rfl | rfl | rfl | rfl <;> decide
      rw [List.count_eq_zero.2 fun hm => by simpa [hw] using b1 _ hm, List.count_eq_zero.2 fun hm => by simpa [hw] using b2 _ hm]
  have hlen := C35_length_partial pre post l args content pb pe f hf hpre hpost
  rw [h, hp] at hlen
  have hr : Ast1.roundSquare s ≤ Ast1.roundSquare (Ast1.displayChunks d) := by
    rw [Ast1.roundSquare_eq, Ast1.roundSquare_eq]
    have key : ∀ a : Char, isWhitespace a = false → s.count a ≤ (Ast1.displayChunks d).count a := by
      intro a ha
      have h1 := (hone a).1
      have h2 : pb.count a = 0 := List.count_eq_zero.2 fun hm => by simpa [ha] using b1 _ hm
      omega
    have := key '[' (by decide); have := key ']' (by decide); have := key '(' (by decide); have := key ')' (by decide)
    omega
  have hprint := hnear.eq (by omega) hr
  refine ⟨hprint, ?_⟩
  -- the same string after \begin and \end
  obtain ⟨pre', args', content', post', h1, h2, h3, h4, rfl⟩ := sections_body hf hpre hpost
  have k2 := (tryArgs_keeps h2).1
  have l1 := mathsFromChunks_le h1
  have l3 := mathsFromChunks_le h3
  have l4 := mathsFromChunks_le h4
  have hall := h.trans (hprint.symm.trans hp.symm)
  rw [display_document, display2_append, Ast2.displayChunks, display_body2] at hall
  simp only [List.append_assoc] at hall
  have e1 := append_eq_of_le hall l1 (by simp; omega)
  have e2 := e1.2
  simp only [List.append_cancel_left_eq] at e2
  have e2 := append_eq_of_le e2 k2 (by simp; omega)
  have e3 := append_eq_of_le e2.2 l3 (by simp; omega)
  have e4 := e3.2
  simp only [List.append_cancel_left_eq] at e4
  have e5 := (List.append_inj e4 hperm).1
  subst e5
  exact ⟨pre, post, l, args, content, pb, rfl, hpre, hpost⟩

end LatexAst.Ast3

namespace LatexAst.Ast3
open Spec

/-- The stage-2 document has one document environment, the same string follows its `\begin` and its `\end`, and the maths
of each of its parts is kept. -/
def KeptByStage3 (e : Ast2.Document) : Prop :=
  ∃ pre post l args content pb, e = pre ++ .mk l (.environment (.mk chars!"document" args content pb pb)) :: post ∧
    (∀ c ∈ pre, isBody c = false) ∧ (∀ c ∈ post, isBody c = false) ∧
    KeepsText pre ∧ (∀ x ∈ args, KeepsText x.2.chunks) ∧ KeepsText content ∧ KeepsText post

/-- C35 for sources, exactly and without conditions: a source that stage 3 accepts is printed back by it if and only if
stage 1 prints it back (`Verbatim`) and its stage-2 document has exactly one document environment, with the same string
after `\begin` and `\end`, in and around which all maths is kept. -/
theorem C35_verbatim_partial (s : Str) (f : Document) (h : fromStr s = .ok f) :
    f.display = s ↔ Ast1.Verbatim s ∧ ∃ e, Ast2.fromStr s = .ok e ∧ KeptByStage3 e := by
  obtain ⟨d, e, h1, h2, h3, h4⟩ := fromStr_ok h
  constructor
  · intro hp
    obtain ⟨g1, pre, post, l, args, content, pb, rfl, g2, g3⟩ := printsBack_one h1 h2 h4 hp
    refine ⟨(Ast1.C01_same_partial s d h1).1 g1, _, h3, pre, post, l, args, content, pb, rfl, g2, g3, ?_⟩
    refine (C35_exact_partial pre post l args content pb f h4 g2 g3).1 ?_
    rw [hp, Ast2.display_tryFrom h2, g1]
  · rintro ⟨hv, e', he', pre, post, l, args, content, pb, rfl, g2, g3, hk⟩
    exact (C35_source_partial s _ f hv he' h pre post l args content pb rfl g2 g3).2 hk

/-- C72, exactly: a stage-3 document (parsed or not) is read back from its printed form if and only if it is the
conversion of a canonical stage-2 document with exactly one document environment, the same string after `\begin` and
`\end`, in and around which all maths is kept. -/
theorem C72_exact_partial (f : Document) :
    fromStr f.display = .ok f ↔ ∃ e, tryFrom e = .ok f ∧ Ast2.Canonical e ∧ KeptByStage3 e := by
  constructor
  · intro h
    obtain ⟨d, e, h1, h2, h3, h4⟩ := fromStr_ok h
    obtain ⟨_, e', he', hk⟩ := (C35_verbatim_partial _ f h).1 rfl
    rw [h3] at he'
    cases he'
    refine ⟨e, h4, (Ast2.C71 e).1 ?_, hk⟩
    obtain ⟨g1, _⟩ := printsBack_one h1 h2 h4 rfl
    rw [Ast2.display_tryFrom h2, g1]
    exact h3
  · rintro ⟨e, h, hc, pre, post, l, args, content, pb, rfl, g2, g3, hk⟩
    exact C72_partial pre post l args content pb f h g2 g3 hc hk

/-- Non-vacuity: a source with maths that is printed back, and one whose only fault is a blank after `\end`. -/
theorem C35_verbatim_example :
    (∃ f, fromStr chars!"\\documentclass{a}\n\\begin{document}x $y$\\end{document}\n" = .ok f ∧
      f.display = chars!"\\documentclass{a}\n\\begin{document}x $y$\\end{document}\n") ∧
    (∃ f, fromStr chars!"\n\\begin{document}x\\end {document}" = .ok f ∧
      f.display = chars!"\n\\begin{document}x\\end{document}") := by
  have key : ∀ s t : Str, ((fromStr s).toOption.map fun f => f.display) = some t → ∃ f, fromStr s = .ok f ∧ f.display = t := by
    intro s t h
    cases hs : fromStr s with
    | error x => rw [hs] at h; cases h
    | ok f => rw [hs] at h; exact ⟨f, rfl, Option.some.inj h⟩
  exact ⟨key _ _ (by decide +kernel), key _ _ (by decide +kernel)⟩

end LatexAst.Ast3
