import Verif.Proofs.Load3e
import Verif.Model.Eq2
import Verif.Model.Eq3

/-!
# C110: which stage-3 documents survive saving and loading
-/

namespace LatexAst.Ast3
open Spec

theorem readsLists_iff {ls os} : ReadsLists ls os ↔ ls.flatMap readOptions = os := by
  refine ⟨readsLists_sound, fun h => ?_⟩
  obtain ⟨os', h'⟩ := readsLists_total ls
  rw [← h, readsLists_sound h']
  exact h'

theorem recognisable_tryArgs {args : List (Str × Ast2.Scope)} {args'} (h : tryArgs mathsFromChunks args = .ok args')
    (hk : ∀ x ∈ args, KeepsText x.2.chunks) (hn : ∀ x ∈ args, Ast2.NeatSeq x.2.chunks) : ∀ x ∈ args', Recognisable x.2.chunks := by
  obtain ⟨items, rfl, hi⟩ := yield_items (args := args) fun x _ => yields_total 0 x.2.chunks
  rw [tryArgs_items fun x hx => yields_iff.2 ⟨_, hi x hx, rfl⟩] at h
  refine recognisable_args h fun x hx out ho => ?_
  have hm : x.1 ∈ items.map (·.1) := List.mem_map.2 ⟨x, hx, rfl⟩
  exact ((hk x.1 hm).recognisable 0 out (.inl (hn x.1 hm)) (ho ▸ hi x hx)).1

theorem found_tryArgs {out : List (Str × Scope)} {args : List (Str × Ast2.Scope)} (h : ∀ x ∈ out, Recognisable x.2.chunks)
    (hn : ∀ x ∈ args, Ast2.NeatSeq x.2.chunks) (he : Ast2.argAtoms args = argAtoms out) :
    tryArgs mathsFromChunks args = .error .panic ∨ ∃ args', tryArgs mathsFromChunks args = .ok args' ∧ noLinesArgs args' = noLinesArgs out := by
  obtain ⟨items, rfl, hi⟩ := yield_items (args := args) fun x _ => yields_total 0 x.2.chunks
  rw [tryArgs_items fun x hx => yields_iff.2 ⟨_, hi x hx, rfl⟩]
  exact Found.args (fun x hx => (h x hx).found) (fun x hx => hn x.1 (List.mem_map.2 ⟨x, hx, rfl⟩)) he hi

theorem loadable_of_survives {f : Document} (h : Survives f) : Loadable f := by
  obtain ⟨f', hp, hs⟩ := h
  have hd := display_document_same hs
  have hsp := spelled_document_same hs
  obtain ⟨d, e, p1, p2, p3, p4⟩ := fromStr_ok hp
  obtain ⟨hv, e', he', pre, post, l, args, content, pb, rfl, hb1, hb2, k1, k2, k3, k4⟩ := (C35_verbatim_partial _ f' hp).1 hd
  rw [p3, Except.ok.injEq] at he'
  subst he'
  obtain ⟨pre', args', content', post', m1, m2, m3, m4, rfl⟩ := sections_body p4 hb1 hb2
  -- the stage-2 document survives, so it is neat
  have hself : Ast2.displayChunks (pre ++ .mk l (.environment (.mk chars!"document" args content pb pb)) :: post) = f.display := by
    rw [Ast2.display_tryFrom p2, (Ast1.C01_same_partial _ d p1).2 hv]
  have hsurv : Ast2.Survives (pre ++ .mk l (.environment (.mk chars!"document" args content pb pb)) :: post) :=
    ⟨_, by rw [hself]; exact p3, Ast2.same_refl _⟩
  have hneat := Ast2.survives_neat _ hsurv
  obtain ⟨n1, n2⟩ := Ast2.neat_append hneat
  have n3 : Ast2.NeatArgs args ∧ Ast2.NeatSeq content := n2.1
  have n4 := n2.2.1
  -- the parts
  have g1 := congrArg Document.preamable hs
  have g2 := congrArg Document.bodyArgs hs
  have g3 := congrArg Document.body hs
  have g4 := congrArg Document.trailing hs
  have g5 := congrArg Document.bodyBeginPrec hs
  have g6 := congrArg Document.bodyEndPrec hs
  have g7 := congrArg Document.documentclass hs
  have g8 := congrArg Document.documentoptions hs
  simp only [Document.noLines, classDocument] at g1 g2 g3 g4 g5 g6 g7 g8
  have a1 : Ast2.atoms (spelled f.preamable) = Ast2.atoms pre := by rw [atoms_spelled, ← atoms_noLines g1, atoms_maths m1 k1]
  have a4 : Ast2.atoms (spelled f.trailing) = Ast2.atoms post := by rw [atoms_spelled, ← atoms_noLines g4, atoms_maths m4 k4]
  have hcl := tryFrom_classesOk p4
  rw [preambleOf_body hb1] at hcl
  refine ⟨g5.symm.trans g6, ?_, (recognisable_maths m1 k1 n1).same _ g1.symm, ?_, (recognisable_maths m3 k3 n3.2).same _ g3.symm,
    (recognisable_maths m4 k4 n4).same _ g4.symm, ?_, classesOk_same a1.symm hcl, ?_, ?_⟩
  · rw [← hsp]
    have hat : Ast2.atoms (Document.spelled { classDocument pre with
        preamable := pre', body := content', bodyArgs := args', bodyBeginPrec := pb, bodyEndPrec := pb, trailing := post' }) =
        Ast2.atoms (pre ++ .mk l (.environment (.mk chars!"document" args content pb pb)) :: post) := by
      rw [atoms_document, Ast2.atoms_append]
      simp only [Document.atoms, atoms_maths m1 k1, atoms_maths m3 k3, atoms_maths m4 k4, argAtoms_tryArgs m2 k2, Ast2.atoms,
        Ast2.ChunkVariant.atoms, Ast2.Environment.atom, List.cons_append, List.nil_append]
    refine ⟨pre ++ .mk l (.environment (.mk chars!"document" args content pb pb)) :: post, ?_, Ast2.neat_same (neat_document _) hneat hat⟩
    rw [← Ast2.print_atoms, hat, Ast2.print_atoms, hself]
    exact p3
  · intro x hx
    obtain ⟨y, hy, h3⟩ := noLinesArgs_same g2.symm x hx
    exact (recognisable_tryArgs m2 k2 ((Ast2.neatArgs_iff _).1 n3.1) y hy).same _ h3
  · rintro c (hc | hc)
    · exact isBody_same a1.symm hb1 c hc
    · exact isBody_same a4.symm hb2 c hc
  · rw [← g7, (class_same a1).1]
  · rw [readsLists_iff, ← g8, (class_same a1).2]

theorem survives_of_loadable {f : Document} (hp : fromStr f.display ≠ .error .panic) (h : Loadable f) : Survives f := by
  obtain ⟨e, he, hse⟩ := h.stage2
  rw [display_spelled h.blanks] at he
  have hat := (Ast2.same_atoms hse).symm.trans (atoms_document f)
  have hneat := Ast2.same_neat hse (neat_document f)
  obtain ⟨pre, l, v, post, rfl, a1, a2, _, a4⟩ := Ast2.split_node (atoms_environment_node _ _ _ _ _) (show _ = _ ++ _ :: _ from hat)
  obtain ⟨args, content, rfl, a5, a6⟩ := Ast2.environment_of_atom a2
  obtain ⟨n1, n2⟩ := Ast2.neat_append hneat
  have n3 : Ast2.NeatArgs args ∧ Ast2.NeatSeq content := n2.1
  have n4 := n2.2.1
  have b1 : Ast2.atoms (spelled f.preamable) = Ast2.atoms pre := by rw [atoms_spelled, a1]
  have b4 : Ast2.atoms (spelled f.trailing) = Ast2.atoms post := by rw [atoms_spelled, a4]
  have hb1 := isBody_same b1 fun c hc => h.one c (.inl hc)
  have hb2 := isBody_same b4 fun c hc => h.one c (.inr hc)
  have hrun : fromStr f.display = tryFrom (pre ++ .mk l (.environment (.mk chars!"document" args content f.bodyBeginPrec f.bodyEndPrec)) :: post) := by
    simp only [fromStr, he]
  have hbody := tryFrom_body (l := l) (args := args) (content := content) (pb := f.bodyBeginPrec) (pe := f.bodyEndPrec) hb1 hb2
    (classesOk_same b1 h.classes)
  rw [← hrun] at hbody
  unfold Survives
  rw [hbody] at hp ⊢
  rcases found_tryArgs h.bodyArgs ((Ast2.neatArgs_iff _).1 n3.1) a5 with m | ⟨args', m2, g2⟩
  · exact absurd (by rw [m]) hp
  rcases h.body.maths n3.2 a6 with m | ⟨content', m3, g3⟩
  · exact absurd (by rw [m2, m]) hp
  rcases h.preamble.maths n1 a1 with m | ⟨pre', m1, g1⟩
  · exact absurd (by rw [m2, m3, m]) hp
  rcases h.trailing.maths n4 a4 with m | ⟨post', m4, g4⟩
  · exact absurd (by rw [m2, m3, m1, m]) hp
  refine ⟨_, by simp only [m1, m2, m3, m4]; rfl, ?_⟩
  have hcls := h.documentclass
  have hopt := readsLists_iff.1 h.options
  rw [(class_same b1).1] at hcls
  rw [(class_same b1).2] at hopt
  simp only [Document.noLines, classDocument, g1, g2, g3, g4, hcls, hopt]

/-- C110: a stage-3 document, parsed or built by hand, survives saving and loading exactly if it is loadable, piece by piece, and parsing does not
panic over line numbers. -/
theorem C110 (f : Document) : Survives f ↔ fromStr f.display ≠ .error .panic ∧ Loadable f := by
  constructor
  · intro h
    refine ⟨?_, loadable_of_survives h⟩
    obtain ⟨f', h1, _⟩ := h
    rw [h1]
    intro h2
    cases h2
  · rintro ⟨h1, h2⟩
    exact survives_of_loadable h1 h2

/-- C110: whatever the line numbers of a loadable document are, loading what was saved gives the document itself or panics; it never gives another
document, or an error. -/
theorem C110_otherwise (f : Document) (h : Loadable f) : Survives f ∨ fromStr f.display = .error .panic := by
  by_cases hp : fromStr f.display = .error .panic
  · exact .inr hp
  · exact .inl ((C110 f).2 ⟨hp, h⟩)

/-- C110: one section. Chunks that can be recognised are what converting any stage-2 sequence with the same parts gives, if it does not panic. -/
theorem C110_section (cs : List Chunk) (h : Recognisable cs) (ds : List Ast2.Chunk) (hs : Ast2.SameButLines (spelled cs) ds) :
    mathsFromChunks ds = .error .panic ∨ ∃ cs', mathsFromChunks ds = .ok cs' ∧ noLines cs' = noLines cs :=
  h.maths (Ast2.same_neat hs (neat_spelled cs)) ((Ast2.same_atoms hs).symm.trans (atoms_spelled cs))

/-- C110: the other way round: what a sequence that survives at stage 2 gives, if all maths in it is kept, can be recognised. -/
theorem C110_recognisable (ds : List Ast2.Chunk) (cs : List Chunk) (h : Ast2.Survives ds) (hk : KeepsText ds) (hm : mathsFromChunks ds = .ok cs) :
    Recognisable cs ∧ Ast2.SameButLines (spelled cs) ds :=
  ⟨recognisable_maths hm hk (Ast2.survives_neat _ h),
    Ast2.neat_same (neat_spelled cs) (Ast2.survives_neat _ h) (by rw [atoms_spelled, atoms_maths hm hk])⟩

end LatexAst.Ast3

namespace LatexAst.Ast3
open Spec

/-- A document with this body and nothing else. -/
def withBodyOnly (body : List Chunk) : Document :=
  { documentclass := none, documentoptions := [], preamable := [], bodyArgs := [], body := body, bodyBeginPrec := [], bodyEndPrec := [], trailing := [] }

/-- Loading gives the document (apart from lines), as a computation. -/
def comesBack (f : Document) : Bool := match fromStr f.display with
  | .ok f' => decide (f'.noLines = f.noLines)
  | .error _ => false

theorem survives_comesBack (f : Document) : Survives f ↔ comesBack f = true := by
  unfold Survives comesBack
  constructor
  · rintro ⟨f', h1, h2⟩
    rw [h1]
    simp [h2]
  · intro h
    split at h
    · rename_i f' hf
      exact ⟨f', hf, by simpa using h⟩
    · cases h

/-- A document built by hand: a class, a formula in dollar signs with a scope and a text in it, a paragraph break and a formula in brackets, with
arbitrary line numbers. -/
def builtByHand : Document :=
  { documentclass := some chars!"a"
    documentoptions := []
    preamable := [.mk 7 (.command (.mk chars!"documentclass" [([], .mk [.mk 9 (.text chars!"a")] .curly)])), .mk 7 (.text chars!"\n")]
    bodyArgs := []
    bodyBeginPrec := []
    bodyEndPrec := []
    trailing := []
    body := [.mk 3 (.text chars!"x "),
      .mk 0 (.mathsBlock (.mk .dollars .inline [.mk 5 (.scope (.mk [.mk 2 (.text chars!"y")] .curly)), .mk 1 (.text chars!"=z")])),
      .mk 5 (.text chars!" w"), .mk 4 (.paragraphBreak chars!"\n\n"), .mk 8 (.mathsBlock (.mk .brackets .outline []))] }

/-- C110: that document survives, so it is loadable. -/
theorem C110_example : Survives builtByHand ∧ Loadable builtByHand := by
  have h := (survives_comesBack builtByHand).2 (by decide +kernel)
  exact ⟨h, ((C110 _).1 h).2⟩

/-- C110: each condition on the pieces is needed: texts next to each other, a dollar sign in a text, a paragraph break in a text, a text at the
beginning of a formula that has more in it, an empty `$$`, brackets in brackets of the same kind, and a class that is not named in the preamble. The
empty `$$$$` and brackets of the other kind are no problem. -/
theorem C110_needed :
    ¬ Survives (withBodyOnly [.mk 1 (.text chars!"a"), .mk 1 (.text chars!"b")]) ∧
    ¬ Survives (withBodyOnly [.mk 1 (.text chars!"a$b")]) ∧
    ¬ Survives (withBodyOnly [.mk 1 (.text chars!"a\n\nb")]) ∧
    ¬ Survives (withBodyOnly [.mk 1 (.mathsBlock (.mk .dollars .inline [.mk 1 (.text chars!"a"), .mk 1 (.scope (.mk [] .curly))]))]) ∧
    ¬ Survives (withBodyOnly [.mk 1 (.mathsBlock (.mk .dollars .inline []))]) ∧
    Survives (withBodyOnly [.mk 1 (.mathsBlock (.mk .dollars .outline []))]) ∧
    Survives (withBodyOnly [.mk 1 (.text chars!"a"), .mk 1 (.mathsBlock (.mk .brackets .outline [.mk 1 (.mathsBlock (.mk .brackets .inline []))]))]) ∧
    ¬ Survives (withBodyOnly [.mk 1 (.text chars!"a"), .mk 1 (.mathsBlock (.mk .brackets .outline [.mk 1 (.mathsBlock (.mk .brackets .outline []))]))]) ∧
    ¬ Survives { withBodyOnly [] with documentclass := some chars!"a" } := by
  simp only [survives_comesBack]
  decide +kernel

/-- C110: the condition about panics is needed, too: `${` newline newline `}$` is loadable, but parsing it panics. -/
theorem C110_panic : ∃ f, Loadable f ∧ ¬ Survives f := by
  refine ⟨withBodyOnly [.mk 1 (.mathsBlock (.mk .dollars .inline [.mk 1 (.scope (.mk [.mk 1 (.paragraphBreak chars!"\n\n")] .curly))]))], ?_, ?_⟩
  · have hb : Recognisable [.mk 1 (.paragraphBreak chars!"\n\n")] := by
      have := @Recognisable.run [.mk 1 (.paragraphBreak chars!"\n\n")] [] (.break ⟨⟨_, rfl⟩, by simp [Blank, isWhitespace], by decide⟩ .nil) (by decide)
        (by rintro ⟨_, _, _, h, _⟩; cases h) .nil
      exact this
    refine ⟨rfl, ?_, .nil, by simp [withBodyOnly], ?_, .nil, by simp [withBodyOnly, spelled, spellOnto], ?_, rfl, .nil⟩
    · have hd : (match Ast2.fromStr (Ast2.displayChunks (withBodyOnly [.mk 1 (.mathsBlock (.mk .dollars .inline [.mk 1 (.scope (.mk
          [.mk 1 (.paragraphBreak chars!"\n\n")] .curly))]))]).spelled) with
        | .ok e => decide (e = [.mk 1 (.environment (.mk chars!"document" [] [.mk 1 (.text chars!"$"),
            .mk 1 (.scope (.mk [.mk 1 (.text chars!"\n\n")] .curly)), .mk 3 (.text chars!"$")] [] []))])
        | .error _ => false) = true := by decide +kernel
      split at hd
      · rename_i e he
        refine ⟨e, he, ?_⟩
        rw [of_decide_eq_true hd]
        simp [withBodyOnly, Document.spelled, spelled, spellOnto, ChunkVariant.spell, MathsBlock.spell, Scope.spell, addText, dollarsOf, spellArgs,
          Ast2.SameButLines, Ast2.Retexted, Ast2.RetextedV, Ast2.RetextedArgs]
      · cases hd
    · exact .dollars (ms := [.mk 0 (.scope (.mk [.mk 0 (.text chars!"\n\n")] .curly))]) (t := [])
        (by simp [spelled, spellOnto, ChunkVariant.spell, Scope.spell, addText, textIf2])
        (by intro m hm t ht; simp at hm; subst hm; cases ht) (by simp) (by simp) (.scope hb .nil) .nil
    · intro a l args b h
      simp [withBodyOnly, spelled, spellOnto] at h
  · rw [survives_comesBack]
    decide +kernel

end LatexAst.Ast3
