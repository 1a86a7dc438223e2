import Verif.Proofs.Load3a

/-!
# Forgetting line numbers at stage 3
-/

namespace LatexAst.Ast3
open Spec

mutual
theorem ChunkVariant.spell_noLines : ∀ (v : ChunkVariant) (tail : List Ast2.Chunk), v.noLines.spell tail = v.spell tail
  | .text t, tail => by simp only [ChunkVariant.noLines]
  | .paragraphBreak t, tail => by simp only [ChunkVariant.noLines]
  | .mathsBlock m, tail => by simp only [ChunkVariant.noLines, ChunkVariant.spell, MathsBlock.spell_noLines m tail]
  | .command c, tail => by simp only [ChunkVariant.noLines, ChunkVariant.spell, Command.spell_noLines c]
  | .scope s, tail => by simp only [ChunkVariant.noLines, ChunkVariant.spell, Scope.spell_noLines s]
  | .environment e, tail => by simp only [ChunkVariant.noLines, ChunkVariant.spell, Environment.spell_noLines e]
theorem MathsBlock.spell_noLines : ∀ (m : MathsBlock) (tail : List Ast2.Chunk), m.noLines.spell tail = m.spell tail
  | .mk .dollars t content, tail => by simp only [MathsBlock.noLines, MathsBlock.spell, spellOnto_noLines content]
  | .mk .brackets t content, tail => by simp only [MathsBlock.noLines, MathsBlock.spell, spellOnto_noLines content]
theorem Command.spell_noLines : ∀ c : Command, c.noLines.spell = c.spell
  | .mk label args => by simp only [Command.noLines, Command.spell, spellArgs_noLines args]
theorem Scope.spell_noLines : ∀ s : Scope, s.noLines.spell = s.spell
  | .mk inner v => by simp only [Scope.noLines, Scope.spell, spellOnto_noLines inner]
theorem Environment.spell_noLines : ∀ e : Environment, e.noLines.spell = e.spell
  | .mk label args content pb pe => by
    simp only [Environment.noLines, Environment.spell, spellArgs_noLines args, spellOnto_noLines content]
theorem spellArgs_noLines : ∀ args : List (Str × Scope), spellArgs (noLinesArgs args) = spellArgs args
  | [] => rfl
  | (p, s) :: r => by simp only [noLinesArgs, spellArgs, Scope.spell_noLines s, spellArgs_noLines r]
theorem spellOnto_noLines : ∀ (cs : List Chunk) (tail : List Ast2.Chunk), spellOnto (noLines cs) tail = spellOnto cs tail
  | [], tail => by simp only [noLines]
  | .mk l v :: cs, tail => by simp only [noLines, spellOnto, ChunkVariant.spell_noLines v, spellOnto_noLines cs]
end

theorem spelled_noLines {a b : List Chunk} (h : noLines a = noLines b) : spelled a = spelled b := by
  rw [spelled, ← spellOnto_noLines a, h, spellOnto_noLines]; rfl

theorem atoms_noLines {a b : List Chunk} (h : noLines a = noLines b) : atoms a = atoms b := by
  rw [← atoms_spelled, ← atoms_spelled, spelled_noLines h]

theorem spellArgs_same {a b : List (Str × Scope)} (h : noLinesArgs a = noLinesArgs b) : spellArgs a = spellArgs b := by
  rw [← spellArgs_noLines a, h, spellArgs_noLines]

theorem noLines_append (a b : List Chunk) : noLines (a ++ b) = noLines a ++ noLines b := by
  induction a with
  | nil => simp [noLines]
  | cons c a ih => obtain ⟨l, v⟩ := c; simp [noLines, ih]

theorem noLines_append_eq {a b x : List Chunk} (h : noLines x = noLines (a ++ b)) :
    ∃ a' b', x = a' ++ b' ∧ noLines a' = noLines a ∧ noLines b' = noLines b := by
  induction a generalizing x with
  | nil => exact ⟨[], x, rfl, by simp [noLines], h⟩
  | cons c a ih =>
    obtain ⟨l, v⟩ := c
    cases x with
    | nil => simp [noLines] at h
    | cons c' x =>
      obtain ⟨l', v'⟩ := c'
      simp only [List.cons_append, noLines, List.cons.injEq, Chunk.mk.injEq, true_and] at h
      obtain ⟨a', b', h1, h2, h3⟩ := ih h.2
      exact ⟨.mk l' v' :: a', b', by rw [h1]; rfl, by simp [noLines, h.1, h2], h3⟩

theorem noLines_cons_eq {l v} {r x : List Chunk} (h : noLines x = noLines (.mk l v :: r)) :
    ∃ l' v' r', x = .mk l' v' :: r' ∧ v'.noLines = v.noLines ∧ noLines r' = noLines r := by
  cases x with
  | nil => simp [noLines] at h
  | cons c' x =>
    obtain ⟨l', v'⟩ := c'
    simp only [noLines, List.cons.injEq, Chunk.mk.injEq, true_and] at h
    exact ⟨l', v', x, rfl, h.1, h.2⟩

theorem noLinesArgs_same {a b : List (Str × Scope)} (h : noLinesArgs a = noLinesArgs b) :
    ∀ x ∈ a, ∃ y ∈ b, noLines x.2.chunks = noLines y.2.chunks := by
  induction a generalizing b with
  | nil => simp
  | cons x a ih =>
    obtain ⟨p, ⟨inner, v⟩⟩ := x
    cases b with
    | nil => simp [noLinesArgs] at h
    | cons y b =>
      obtain ⟨p', ⟨inner', v'⟩⟩ := y
      simp only [noLinesArgs, Scope.noLines, List.cons.injEq, Prod.mk.injEq, Scope.mk.injEq] at h
      intro z hz
      rcases List.mem_cons.1 hz with rfl | hz
      · exact ⟨_, .head _, h.1.2.1⟩
      · obtain ⟨y, hy, h'⟩ := ih h.2 z hz
        exact ⟨y, .tail _ hy, h'⟩

/-- A text or a break. -/
def TextLike (v : ChunkVariant) : Prop := (∃ t, v = .text t) ∨ ∃ t, v = .paragraphBreak t

theorem textLike_noLines {v w : ChunkVariant} (h : w.noLines = v.noLines) (hv : TextLike v) : w = v := by
  rcases hv with ⟨t, rfl⟩ | ⟨t, rfl⟩ <;> cases w <;> simp_all [ChunkVariant.noLines]

theorem textLike_same {v w : ChunkVariant} (h : w.noLines = v.noLines) : TextLike w ↔ TextLike v :=
  ⟨fun hw => by rw [← textLike_noLines h.symm hw] at hw; exact hw, fun hv => by rw [← textLike_noLines h hv] at hv; exact hv⟩

theorem beginsWithText_iff {cs : List Chunk} : BeginsWithText cs ↔ ∃ l v r, cs = .mk l v :: r ∧ TextLike v := Iff.rfl

theorem beginsWithText_same {a b : List Chunk} (h : noLines a = noLines b) : BeginsWithText a → BeginsWithText b := by
  rintro ⟨l, v, r, rfl, hv⟩
  obtain ⟨l', v', r', rfl, h1, h2⟩ := noLines_cons_eq h.symm
  exact ⟨l', v', r', rfl, (textLike_same h1).2 hv⟩

theorem cut_textLike {b vs} (h : Cut b vs) : ∀ v ∈ vs, TextLike v := by
  induction h with
  | nil => simp
  | last => intro v hv; simp only [List.mem_singleton] at hv; exact .inl ⟨_, hv⟩
  | text _ _ _ _ _ ih =>
    intro v hv
    simp only [List.mem_cons] at hv
    rcases hv with rfl | rfl | hv
    · exact .inl ⟨_, rfl⟩
    · exact .inr ⟨_, rfl⟩
    · exact ih v hv
  | «break» _ _ ih =>
    intro v hv
    simp only [List.mem_cons] at hv
    rcases hv with rfl | hv
    · exact .inr ⟨_, rfl⟩
    · exact ih v hv

theorem variants_same {a b : List Chunk} (h : noLines a = noLines b) (hb : ∀ v ∈ b.map Chunk.variant, TextLike v) :
    a.map Chunk.variant = b.map Chunk.variant := by
  induction b generalizing a with
  | nil => cases a with
    | nil => rfl
    | cons c a => obtain ⟨l, v⟩ := c; simp [noLines] at h
  | cons c b ih =>
    obtain ⟨l, v⟩ := c
    obtain ⟨l', v', a', rfl, h1, h2⟩ := noLines_cons_eq h
    have := textLike_noLines h1 (hb v (.head _))
    subst this
    simp [Chunk.variant, ih h2 fun w hw => hb w (.tail _ hw)]

theorem noLines_of_variants {a b : List Chunk} (h : a.map Chunk.variant = b.map Chunk.variant) : noLines a = noLines b := by
  induction a generalizing b with
  | nil => cases b with
    | nil => rfl
    | cons c a => simp at h
  | cons c a ih =>
    cases b with
    | nil => simp at h
    | cons c' b =>
      obtain ⟨l, v⟩ := c
      obtain ⟨l', v'⟩ := c'
      simp only [List.map_cons, List.cons.injEq, Chunk.variant] at h
      simp [noLines, h.1, ih h.2]

theorem display_variants {a b : List Chunk} (h : a.map Chunk.variant = b.map Chunk.variant) : displayChunks a = displayChunks b := by
  induction a generalizing b with
  | nil => cases b with
    | nil => rfl
    | cons c a => simp at h
  | cons c a ih =>
    cases b with
    | nil => simp at h
    | cons c' b =>
      obtain ⟨l, v⟩ := c
      obtain ⟨l', v'⟩ := c'
      simp only [List.map_cons, List.cons.injEq, Chunk.variant] at h
      simp [displayChunks, Chunk.display, h.1, ih h.2]

/-- Being recognisable does not depend on line numbers. -/
theorem Recognisable.same {a} (h : Recognisable a) : ∀ b, noLines b = noLines a → Recognisable b := by
  induction h with
  | nil => intro b hb; cases b with
    | nil => exact .nil
    | cons c b => obtain ⟨l, v⟩ := c; simp [noLines] at hb
  | run hc hd hb _ ih =>
    intro b hs
    obtain ⟨p, r, rfl, h1, h2⟩ := noLines_append_eq hs
    have h3 := variants_same h1 (cut_textLike hc)
    exact .run (h3 ▸ hc) (display_variants h3 ▸ hd) (fun hbt => hb (beginsWithText_same h2 hbt)) (ih r h2)
  | @command l label args rest hl _ _ ih1 ih2 =>
    intro b hs
    obtain ⟨l', v', r', rfl, h1, h2⟩ := noLines_cons_eq hs
    cases v' with
    | command c =>
      obtain ⟨label', args'⟩ := c
      simp only [ChunkVariant.noLines, Command.noLines, ChunkVariant.command.injEq, Command.mk.injEq] at h1
      obtain ⟨rfl, h1⟩ := h1
      refine .command hl (fun x hx => ?_) (ih2 _ h2)
      obtain ⟨y, hy, h3⟩ := noLinesArgs_same h1 x hx
      exact ih1 y hy _ h3
    | _ => simp [ChunkVariant.noLines] at h1
  | scope _ _ ih1 ih2 =>
    intro b hs
    obtain ⟨l', v', r', rfl, h1, h2⟩ := noLines_cons_eq hs
    cases v' with
    | scope s =>
      obtain ⟨inner', sv'⟩ := s
      simp only [ChunkVariant.noLines, Scope.noLines, ChunkVariant.scope.injEq, Scope.mk.injEq] at h1
      exact .scope (ih1 _ h1.1) (ih2 _ h2)
    | _ => simp [ChunkVariant.noLines] at h1
  | environment _ _ _ ih1 ih2 ih3 =>
    intro b hs
    obtain ⟨l', v', r', rfl, h1, h2⟩ := noLines_cons_eq hs
    cases v' with
    | environment e =>
      obtain ⟨label', args', content', pb', pe'⟩ := e
      simp only [ChunkVariant.noLines, Environment.noLines, ChunkVariant.environment.injEq, Environment.mk.injEq] at h1
      refine .environment (fun x hx => ?_) (ih2 _ h1.2.2.1) (ih3 _ h2)
      obtain ⟨y, hy, h3⟩ := noLinesArgs_same h1.2.1 x hx
      exact ih1 y hy _ h3
    | _ => simp [ChunkVariant.noLines] at h1
  | brackets hn _ _ ih1 ih2 =>
    intro b hs
    obtain ⟨l', v', r', rfl, h1, h2⟩ := noLines_cons_eq hs
    cases v' with
    | mathsBlock m =>
      obtain ⟨v, t, content'⟩ := m
      simp only [ChunkVariant.noLines, MathsBlock.noLines, ChunkVariant.mathsBlock.injEq, MathsBlock.mk.injEq] at h1
      obtain ⟨rfl, rfl, h1⟩ := h1
      exact .brackets (spelled_noLines h1 ▸ hn) (ih1 _ h1) (ih2 _ h2)
    | _ => simp [ChunkVariant.noLines] at h1
  | @dollars l k content rest ms t hsp hm ht hk _ _ ih1 ih2 =>
    intro b hs
    obtain ⟨l', v', r', rfl, h1, h2⟩ := noLines_cons_eq hs
    cases v' with
    | mathsBlock m =>
      obtain ⟨v, t, content'⟩ := m
      simp only [ChunkVariant.noLines, MathsBlock.noLines, ChunkVariant.mathsBlock.injEq, MathsBlock.mk.injEq] at h1
      obtain ⟨rfl, rfl, h1⟩ := h1
      refine .dollars ((spelled_noLines h1).trans hsp) hm ht ?_ (ih1 _ h1) (ih2 _ h2)
      intro hi he
      subst he
      cases content with
      | nil => exact hk hi rfl
      | cons c cs => obtain ⟨l, v⟩ := c; simp [noLines] at h1
    | _ => simp [ChunkVariant.noLines] at h1

/-! ### printing -/

theorem print_delims (v : MathsVariant) (t : MathsType) : Ast2.printAtoms (delimAtoms v t).1 = (delimiters v t).1 ∧
    Ast2.printAtoms (delimAtoms v t).2 = (delimiters v t).2 := by
  cases v <;> cases t <;> exact ⟨rfl, rfl⟩

mutual
theorem ChunkVariant.print_atoms3 : ∀ v : ChunkVariant, Ast2.printAtoms v.atoms = v.display
  | .text t => by simp only [ChunkVariant.atoms, ChunkVariant.display, Ast2.printAtoms_chars]
  | .paragraphBreak t => by simp only [ChunkVariant.atoms, ChunkVariant.display, Ast2.printAtoms_chars]
  | .mathsBlock m => by simp only [ChunkVariant.atoms, ChunkVariant.display, MathsBlock.print_atoms3 m]
  | .scope s => by
    have h := Scope.print_atoms3 s
    obtain ⟨inner, v⟩ := s
    simp only [Scope.chunks] at h
    simp only [ChunkVariant.atoms, ChunkVariant.display, Ast2.printAtoms, Ast2.Atom.print, h, Scope.display, Scope.variant, List.append_nil]
  | .command c => by simp only [ChunkVariant.atoms, ChunkVariant.display, Ast2.printAtoms, Command.print_atom3 c, List.append_nil]
  | .environment e => by simp only [ChunkVariant.atoms, ChunkVariant.display, Ast2.printAtoms, Environment.print_atom3 e, List.append_nil]
theorem MathsBlock.print_atoms3 : ∀ m : MathsBlock, Ast2.printAtoms m.atoms = m.display
  | .mk v t content => by
    simp only [MathsBlock.atoms, MathsBlock.display, Ast2.printAtoms_append, print_atoms3 content, print_delims]
theorem Command.print_atom3 : ∀ c : Command, c.atom.print = c.display
  | .mk label args => by simp only [Command.atom, Ast2.Atom.print, Command.display, print_argAtoms3 args]
theorem Scope.print_atoms3 : ∀ s : Scope, Ast2.printAtoms s.atoms = displayChunks s.chunks
  | .mk inner v => by simp only [Scope.atoms, Scope.chunks, print_atoms3 inner]
theorem Environment.print_atom3 : ∀ e : Environment, e.atom.print = e.display
  | .mk label args content pb pe => by
    simp only [Environment.atom, Ast2.Atom.print, Environment.display, print_argAtoms3 args, print_atoms3 content]
theorem print_argAtoms3 : ∀ args : List (Str × Scope), Ast2.printAtomArgs (argAtoms args) = displayArgs args
  | [] => rfl
  | (p, s) :: r => by
    have h := Scope.print_atoms3 s
    have h' := print_argAtoms3 r
    obtain ⟨inner, v⟩ := s
    simp only [Scope.chunks] at h
    simp only [argAtoms, Ast2.printAtomArgs, Ast2.AtomArg.print, displayArgs, h, h', Scope.display, Scope.variant, List.append_assoc]
theorem print_atoms3 : ∀ cs : List Chunk, Ast2.printAtoms (atoms cs) = displayChunks cs
  | [] => rfl
  | .mk l v :: cs => by
    simp only [atoms, Ast2.printAtoms_append, displayChunks, Chunk.display, ChunkVariant.print_atoms3 v, print_atoms3 cs]
end

theorem display_same {a b : List Chunk} (h : noLines a = noLines b) : displayChunks a = displayChunks b := by
  rw [← print_atoms3, atoms_noLines h, print_atoms3]

theorem displayArgs_same {a b : List (Str × Scope)} (h : noLinesArgs a = noLinesArgs b) : displayArgs a = displayArgs b := by
  rw [← print_argAtoms3, ← argAtoms_spell, spellArgs_same h, argAtoms_spell, print_argAtoms3]

theorem display_document_same {f g : Document} (h : f.noLines = g.noLines) : f.display = g.display := by
  have h1 := congrArg Document.preamable h
  have h2 := congrArg Document.bodyArgs h
  have h3 := congrArg Document.body h
  have h4 := congrArg Document.trailing h
  have h5 := congrArg Document.bodyBeginPrec h
  simp only [Document.noLines] at h1 h2 h3 h4 h5
  rw [display_document, display_document, display_same h1, displayArgs_same h2, display_same h3, display_same h4, h5]

theorem spelled_document_same {f g : Document} (h : f.noLines = g.noLines) : f.spelled = g.spelled := by
  have h1 := congrArg Document.preamable h
  have h2 := congrArg Document.bodyArgs h
  have h3 := congrArg Document.body h
  have h4 := congrArg Document.trailing h
  have h5 := congrArg Document.bodyBeginPrec h
  have h6 := congrArg Document.bodyEndPrec h
  simp only [Document.noLines] at h1 h2 h3 h4 h5 h6
  simp only [Document.spelled, spelled_noLines h1, spellArgs_same h2, spelled_noLines h3, spelled_noLines h4, h5, h6]

end LatexAst.Ast3
