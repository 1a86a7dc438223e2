import Verif.Spec.Atoms
import Verif.Props.ParagraphRule
import Verif.Props.BackRule
import Verif.Props.KeepsText
import Verif.Props.PrintsBack3

/-!
# Going to stage 3 and back: what the documents are made of
-/

namespace LatexAst.Ast2

/-! ### what is made of the same is printed the same -/

mutual
/-- The print of an atom. -/
def Atom.print : Atom → Str
  | .char c => [c]
  | .scope v inner => v.opening :: (printAtoms inner ++ [v.closing])
  | .command label args => '\\' :: (label ++ printAtomArgs args)
  | .environment label args content pb pe =>
    chars!"\\begin" ++ (pb ++ ('{' :: (label ++ ('}' :: (printAtomArgs args ++
      (printAtoms content ++ (chars!"\\end" ++ (pe ++ ('{' :: (label ++ ['}']))))))))))
def AtomArg.print : AtomArg → Str
  | .mk p v inner => p ++ (v.opening :: (printAtoms inner ++ [v.closing]))
def printAtoms : List Atom → Str
  | [] => []
  | a :: r => a.print ++ printAtoms r
def printAtomArgs : List AtomArg → Str
  | [] => []
  | a :: r => a.print ++ printAtomArgs r
end

theorem printAtoms_append (a b : List Atom) : printAtoms (a ++ b) = printAtoms a ++ printAtoms b := by
  induction a with
  | nil => rfl
  | cons x a ih => simp [printAtoms, ih]

theorem printAtoms_chars (t : Str) : printAtoms (t.map .char) = t := by
  induction t with
  | nil => rfl
  | cons c t ih => simp [printAtoms, Atom.print, ih]

mutual
theorem ChunkVariant.print_atoms : ∀ v : ChunkVariant, printAtoms v.atoms = v.display
  | .text t => by simp [ChunkVariant.atoms, ChunkVariant.display, printAtoms_chars]
  | .scope s => by
    have h := Scope.print_atoms s
    obtain ⟨inner, v⟩ := s
    simp [ChunkVariant.atoms, ChunkVariant.display, printAtoms, Atom.print, h, Scope.display, Scope.variant, Scope.chunks]
  | .command c => by
    have h := Command.print_atom c
    simp [ChunkVariant.atoms, ChunkVariant.display, printAtoms, h]
  | .environment e => by
    have h := Environment.print_atom e
    simp [ChunkVariant.atoms, ChunkVariant.display, printAtoms, h]
theorem Command.print_atom : ∀ c : Command, c.atom.print = c.display
  | .mk label args => by
    have h := print_argAtoms args
    simp [Command.atom, Atom.print, Command.display, h]
theorem Scope.print_atoms : ∀ s : Scope, printAtoms s.atoms = displayChunks s.chunks
  | .mk inner v => by
    have h := print_atoms inner
    simp [Scope.atoms, Scope.chunks, h]
theorem Environment.print_atom : ∀ e : Environment, e.atom.print = e.display
  | .mk label args content pb pe => by
    have h := print_argAtoms args
    have h' := print_atoms content
    simp [Environment.atom, Atom.print, Environment.display, h, h']
theorem print_argAtoms : ∀ args : List (Str × Scope), printAtomArgs (argAtoms args) = displayArgs args
  | [] => rfl
  | (p, s) :: r => by
    have h := Scope.print_atoms s
    have h' := print_argAtoms r
    obtain ⟨inner, v⟩ := s
    simp [argAtoms, printAtomArgs, AtomArg.print, displayArgs, h, h', Scope.display, Scope.variant, Scope.chunks]
theorem print_atoms : ∀ cs : List Chunk, printAtoms (atoms cs) = displayChunks cs
  | [] => rfl
  | .mk l v :: cs => by
    have h := ChunkVariant.print_atoms v
    have h' := print_atoms cs
    simp [atoms, printAtoms_append, displayChunks, Chunk.display, h, h']
end

theorem Alike.display {a b} (h : Alike a b) : displayChunks a = displayChunks b := by
  rw [← print_atoms, ← print_atoms, h]

theorem atoms_append (a b : List Chunk) : atoms (a ++ b) = atoms a ++ atoms b := by
  induction a with
  | nil => rfl
  | cons c a ih => obtain ⟨l, v⟩ := c; simp [atoms, ih]

theorem atoms_congr {a b : List Chunk} (h : a.map Chunk.variant = b.map Chunk.variant) : atoms a = atoms b := by
  induction a generalizing b with
  | nil =>
    cases b with
    | nil => rfl
    | cons => simp at h
  | cons c a ih =>
    cases b with
    | nil => simp at h
    | cons c' b =>
      obtain ⟨l, v⟩ := c
      obtain ⟨l', v'⟩ := c'
      simp only [List.map_cons, List.cons.injEq, Chunk.variant] at h
      simp [atoms, h.1, ih h.2]

theorem atoms_shift (k : Nat) (cs : List Chunk) : atoms (cs.map (Chunk.shift k)) = atoms cs := by
  refine atoms_congr ?_
  rw [List.map_map]
  refine List.map_congr_left fun c _ => ?_
  obtain ⟨l, v⟩ := c
  rfl

theorem atoms_countFrom (k : Nat) (cs : List Chunk) : atoms (cs.map (Ast3.countFrom k)) = atoms cs := by
  refine atoms_congr ?_
  rw [List.map_map]
  refine List.map_congr_left fun c _ => ?_
  obtain ⟨l, v⟩ := c
  rfl

theorem atoms_joinTexts : ∀ cs : List Chunk, atoms (joinTexts cs) = atoms cs
  | [] => rfl
  | .mk l (.text t) :: r => by
    have ih := atoms_joinTexts r
    unfold joinTexts
    split
    · rename_i h
      rw [h] at ih
      simp only [atoms, ChunkVariant.atoms] at ih ⊢
      rw [← ih]; simp
    · simp [atoms, ih]
  | .mk l (.command c) :: r => by simp [joinTexts, atoms, atoms_joinTexts r]
  | .mk l (.scope c) :: r => by simp [joinTexts, atoms, atoms_joinTexts r]
  | .mk l (.environment c) :: r => by simp [joinTexts, atoms, atoms_joinTexts r]

theorem atoms_scope (inner : List Chunk) (v) : (Scope.mk inner v).atoms = atoms inner := by simp [Scope.atoms]

end LatexAst.Ast2

namespace LatexAst.Ast3
open Ast2 (Atom AtomArg)

/-- The delimiters, at stage 2. -/
def delimAtoms : MathsVariant → MathsType → List Atom × List Atom
  | .brackets, .inline => ([.command chars!"(" []], [.command chars!")" []])
  | .brackets, .outline => ([.command chars!"[" []], [.command chars!"]" []])
  | .dollars, t => ((dollars t).map .char, (dollars t).map .char)

mutual
/-- What a node becomes at stage 2. -/
def ChunkVariant.atoms : ChunkVariant → List Atom
  | .text t => t.map .char
  | .paragraphBreak t => t.map .char
  | .scope s => [.scope s.variant s.atoms]
  | .command c => [c.atom]
  | .environment e => [e.atom]
  | .mathsBlock m => m.atoms
def Command.atom : Command → Atom
  | .mk label args => .command label (argAtoms args)
def Scope.atoms : Scope → List Atom
  | .mk inner _ => atoms inner
def Environment.atom : Environment → Atom
  | .mk label args content pb pe => .environment label (argAtoms args) (atoms content) pb pe
def MathsBlock.atoms : MathsBlock → List Atom
  | .mk v t content => (delimAtoms v t).1 ++ (atoms content ++ (delimAtoms v t).2)
def argAtoms : List (Str × Scope) → List AtomArg
  | [] => []
  | (p, s) :: r => .mk p s.variant s.atoms :: argAtoms r
def atoms : List Chunk → List Atom
  | [] => []
  | .mk _ v :: cs => v.atoms ++ atoms cs
end

theorem atoms_append (a b : List Chunk) : atoms (a ++ b) = atoms a ++ atoms b := by
  induction a with
  | nil => rfl
  | cons c a ih => obtain ⟨l, v⟩ := c; simp [atoms, ih]

theorem atoms_textIf (l : Nat) (t : Str) : atoms (textIf l t) = t.map .char := by
  unfold textIf
  split
  · rename_i h; subst h; rfl
  · simp [atoms, ChunkVariant.atoms]

theorem atoms_textIf2 (l : Nat) (t : Str) : Ast2.atoms (textIf2 l t) = t.map .char := by
  unfold textIf2
  split
  · rename_i h; subst h; rfl
  · simp [Ast2.atoms, Ast2.ChunkVariant.atoms]

theorem atoms_cut {b vs} (h : Cut b vs) : ∀ pieces : List Chunk, pieces.map Chunk.variant = vs →
    atoms pieces = (displayChunks pieces).map .char := by
  induction h with
  | nil => intro p hp; cases p <;> simp_all [atoms, displayChunks]
  | last _ _ =>
    intro p hp
    match p, hp with
    | [.mk l v], hp =>
      simp only [List.map_cons, List.map_nil, List.cons.injEq, and_true, Chunk.variant] at hp
      subst hp
      simp [atoms, ChunkVariant.atoms, displayChunks, Chunk.display, ChunkVariant.display]
  | text _ _ _ _ _ ih =>
    intro p hp
    match p, hp with
    | .mk l v :: .mk l' v' :: p, hp =>
      simp only [List.map_cons, List.cons.injEq, Chunk.variant] at hp
      obtain ⟨rfl, rfl, hp⟩ := hp
      simp [atoms, ChunkVariant.atoms, displayChunks, Chunk.display, ChunkVariant.display, ih p hp]
  | «break» _ _ ih =>
    intro p hp
    match p, hp with
    | .mk l v :: p, hp =>
      simp only [List.map_cons, List.cons.injEq, Chunk.variant] at hp
      obtain ⟨rfl, hp⟩ := hp
      simp [atoms, ChunkVariant.atoms, displayChunks, Chunk.display, ChunkVariant.display, ih p hp]

theorem atoms_split {cs out} (h : Split cs out) : atoms out = atoms cs := by
  induction h with
  | nil => rfl
  | text hc hd _ _ ih => rw [atoms_append, atoms_cut hc _ rfl, hd, ih]; simp [atoms, ChunkVariant.atoms]
  | @other c cs out _ _ ih => obtain ⟨l, v⟩ := c; simp [atoms, ih]

theorem atoms_paragraphs (cs : List Chunk) : atoms (paragraphs cs) = atoms cs := atoms_split (split_total cs)

/-! ### back to stage 2 -/

theorem atoms_opens {δ cs ds} (h : OpensWith δ cs ds) : Ast2.atoms ds = δ.map .char ++ Ast2.atoms cs := by
  cases h <;> simp [Ast2.atoms, Ast2.ChunkVariant.atoms]

theorem atoms_closes {δ n cs ds} (h : ClosesWith δ n cs ds) : Ast2.atoms ds = Ast2.atoms cs ++ δ.map .char := by
  cases h <;> simp [Ast2.atoms_append, Ast2.atoms, Ast2.ChunkVariant.atoms]

theorem atoms_delimited {v t n cs ds} (h : Delimited v t n cs ds) :
    Ast2.atoms ds = (delimAtoms v t).1 ++ (Ast2.atoms cs ++ (delimAtoms v t).2) := by
  cases h with
  | round => simp [Ast2.atoms, Ast2.atoms_append, Ast2.ChunkVariant.atoms, Ast2.Command.atom, Ast2.argAtoms, delimAtoms]
  | square => simp [Ast2.atoms, Ast2.atoms_append, Ast2.ChunkVariant.atoms, Ast2.Command.atom, Ast2.argAtoms, delimAtoms]
  | emptyDollar => simp [Ast2.atoms, Ast2.ChunkVariant.atoms, delimAtoms, dollars]
  | emptyDollars => simp [Ast2.atoms, Ast2.ChunkVariant.atoms, delimAtoms, dollars]
  | dollar _ h1 h2 => rw [atoms_closes h2, atoms_opens h1]; simp [delimAtoms, dollars]
  | dollars _ h1 h2 => rw [atoms_closes h2, atoms_opens h1]; simp [delimAtoms, dollars]

theorem argAtoms_items : ∀ items : List ((Str × Scope) × List Ast2.Chunk), (∀ x ∈ items, Ast2.atoms x.2 = atoms x.1.2.chunks) →
    Ast2.argAtoms (withInner2 items) = argAtoms (items.map (·.1))
  | [], _ => rfl
  | ((p, sc), cs) :: r, h => by
    have h1 := h _ (.head _)
    have h2 := argAtoms_items r fun x hx => h x (.tail _ hx)
    obtain ⟨inner, v⟩ := sc
    simp only [Scope.chunks] at h1
    simp [withInner2, Ast2.argAtoms, argAtoms, h2, Ast2.atoms_scope, h1, Scope.atoms, Scope.variant, Ast2.Scope.variant]

theorem atoms_unfolds {cs ds} (h : Unfolds cs ds) : Ast2.atoms ds = atoms cs := by
  induction h with
  | nil => rfl
  | text _ ih => simp [Ast2.atoms, Ast2.ChunkVariant.atoms, atoms, ChunkVariant.atoms, ih]
  | «break» _ ih => simp [Ast2.atoms, Ast2.ChunkVariant.atoms, atoms, ChunkVariant.atoms, ih]
  | scope _ _ ih1 ih2 =>
    simp [Ast2.atoms, Ast2.ChunkVariant.atoms, atoms, ChunkVariant.atoms, ih1, ih2, Ast2.Scope.atoms, Scope.atoms, Scope.variant,
      Ast2.Scope.variant]
  | command _ _ ih1 ih2 =>
    simp [Ast2.atoms, Ast2.ChunkVariant.atoms, atoms, ChunkVariant.atoms, Ast2.Command.atom, Command.atom, argAtoms_items _ ih1, ih2]
  | environment _ _ _ ih1 ih2 ih3 =>
    simp [Ast2.atoms, Ast2.ChunkVariant.atoms, atoms, ChunkVariant.atoms, Ast2.Environment.atom, Environment.atom, argAtoms_items _ ih1,
      ih2, ih3]
  | maths _ _ hd _ ih1 ih2 =>
    rw [Ast2.atoms_append, Ast2.atoms_shift, atoms_delimited hd, ih1, ih2]
    simp [atoms, ChunkVariant.atoms, MathsBlock.atoms]

theorem atoms_into {cs ds} (h : intoChunks cs = .ok ds) : Ast2.atoms ds = atoms cs := atoms_unfolds (rule3 _ _ h)

/-! ### to stage 3 -/

theorem toDollar_atoms {p lost kept p'} (h : ToDollar p lost kept p') (hl : lost = []) :
    p.pending.map .char ++ (p.text.map .char ++ Ast2.atoms p.rest) =
      Ast2.atoms kept ++ (p'.pending.map .char ++ (.char '$' :: (p'.text.map .char ++ Ast2.atoms p'.rest))) := by
  induction h with
  | here => simp [Ast2.atoms]
  | @later l q x ms l' t rest lost kept p hx hm _ ih =>
    obtain ⟨h1, h2⟩ := List.append_eq_nil_iff.1 hl
    have h1 := textIf_nil h1
    have ih := ih h2
    obtain ⟨rfl, rfl⟩ := List.append_eq_nil_iff.1 h1
    simp only [List.map_nil, List.nil_append] at ih
    simp [Ast2.atoms_append, Ast2.atoms, Ast2.ChunkVariant.atoms, ih]

theorem argAtoms_same {items : List ((Str × Ast2.Scope) × Outcome)} {args} (h : argOutcome items = .ok args)
    (ih : ∀ x ∈ items, ∀ out, x.2 = .ok out → atoms out = Ast2.atoms x.1.2.chunks) :
    argAtoms args = Ast2.argAtoms (items.map (·.1)) := by
  induction items generalizing args with
  | nil => simp [argOutcome] at h; subst h; simp [argAtoms, Ast2.argAtoms]
  | cons x r ihr =>
    obtain ⟨⟨p, ⟨inner, sv⟩⟩, o⟩ := x
    cases o with
    | error f => simp [argOutcome] at h
    | ok out =>
      cases ha : argOutcome r with
      | error f => simp [argOutcome, ha] at h
      | ok args' =>
        simp [argOutcome, ha] at h
        subst h
        have h1 := ihr ha fun y hy => ih y (.tail _ hy)
        have h2 := ih _ (.head _) out rfl
        simp only [Ast2.Scope.chunks] at h2
        simp [argAtoms, Ast2.argAtoms, Scope.atoms, Ast2.Scope.atoms, atoms_paragraphs, Ast2.Scope.variant, Scope.variant, h1, h2]

theorem KeepsText.atoms {cs} (h : KeepsText cs) : ∀ b out, Yields b cs (.ok out) → Ast3.atoms out = Ast2.atoms cs := by
  induction h with
  | nil =>
    intro b out h
    have := yields_unique h .nil
    simp at this
    subst this
    rfl
  | @text l t cs ht _ ih =>
    intro b out h
    obtain ⟨o, ho⟩ := yields_total b cs
    have := yields_unique h (.text ht ho)
    cases o with
    | error f => simp [before] at this
    | ok o =>
      simp only [before, Except.ok.injEq] at this
      subst this
      simp [atoms_append, atoms_textIf, Ast2.atoms, Ast2.ChunkVariant.atoms, ih b o ho]
  | @inline l q r cs kept p hq hd hk _ _ ih1 ih2 =>
    intro b out h
    by_cases hc : Countable p.line (kept ++ textIf2 p.line p.pending)
    · obtain ⟨i, hi⟩ := yields_total 0 ((kept ++ textIf2 p.line p.pending).map (countFrom p.line))
      obtain ⟨o, ho⟩ := yields_total b (.mk (p.line + p.pending.count '\n') (.text p.text) :: p.rest)
      have := yields_unique h (.formula hq (.inline hd hk) hc hi ho)
      cases i with
      | error f => simp [blockOutcome] at this
      | ok i =>
        cases o with
        | error f => simp [blockOutcome, before] at this
        | ok o =>
          simp only [blockOutcome, before, Except.ok.injEq] at this
          subst this
          have h1 := ih1 0 i hi
          have h2 := ih2 b o ho
          have h3 := toDollar_atoms hd rfl
          rw [Ast2.atoms_countFrom] at h1
          simp only [Ast2.atoms, Ast2.ChunkVariant.atoms, List.nil_append, List.map_nil] at h2 h3
          simp [Ast3.atoms, ChunkVariant.atoms, MathsBlock.atoms, atoms_append, atoms_paragraphs, atoms_textIf, Ast2.atoms,
            Ast2.ChunkVariant.atoms, delimAtoms, dollars, h1, h2, h3, atoms_textIf2, Ast2.atoms_append]
    · cases yields_unique h (.uncountable hq (.inline hd hk) hc)
  | @display l q r cs p₁ kept p₂ p₃ hq hd1 hp1 hd2 hd3 hp3 _ _ ih1 ih2 =>
    intro b out h
    have hf : Formula ⟨l + q.count '\n', [], r, cs⟩ [] .outline (kept ++ textIf2 p₃.line p₃.pending) p₃ := by
      simpa using Formula.display hd1 hp1 hd2 hd3
    by_cases hc : Countable p₃.line (kept ++ textIf2 p₃.line p₃.pending)
    · obtain ⟨i, hi⟩ := yields_total 0 ((kept ++ textIf2 p₃.line p₃.pending).map (countFrom p₃.line))
      obtain ⟨o, ho⟩ := yields_total b (.mk (p₃.line + p₃.pending.count '\n') (.text p₃.text) :: p₃.rest)
      have := yields_unique h (.formula hq hf hc hi ho)
      cases i with
      | error f => simp [blockOutcome] at this
      | ok i =>
        cases o with
        | error f => simp [blockOutcome, before] at this
        | ok o =>
          simp only [blockOutcome, before, Except.ok.injEq] at this
          subst this
          have h1 := ih1 0 i hi
          have h2 := ih2 b o ho
          have h3 := toDollar_atoms hd1 rfl
          have h4 := toDollar_atoms hd2 rfl
          have h5 := toDollar_atoms hd3 rfl
          rw [Ast2.atoms_countFrom] at h1
          simp only [Ast2.atoms, Ast2.ChunkVariant.atoms, List.nil_append, List.map_nil, hp1, hp3,
            List.append_cancel_left_eq] at h2 h3 h4 h5
          simp [Ast3.atoms, ChunkVariant.atoms, MathsBlock.atoms, atoms_append, atoms_paragraphs, atoms_textIf, Ast2.atoms,
            Ast2.ChunkVariant.atoms, delimAtoms, dollars, h1, h2, h3, h4, h5, atoms_textIf2, hp3, Ast2.atoms_append]
    · cases yields_unique h (.uncountable hq hf hc)
  | @brackets k l body l' cs hb _ _ ih1 ih2 =>
    intro b out h
    obtain ⟨i, hi⟩ := yields_total 0 body
    obtain ⟨o, ho⟩ := yields_total l cs
    have := yields_unique h (.brackets (notOfKind_inside hb) hi ho)
    cases i with
    | error f => simp [blockOutcome] at this
    | ok i =>
      cases o with
      | error f => simp [blockOutcome, before] at this
      | ok o =>
        simp only [blockOutcome, before, Except.ok.injEq] at this
        subst this
        have h1 := ih1 0 i hi
        have h2 := ih2 l o ho
        cases k <;> simp [Ast3.atoms, ChunkVariant.atoms, MathsBlock.atoms, atoms_paragraphs,
          Ast2.atoms, Ast2.ChunkVariant.atoms, Ast2.Command.atom, delimAtoms, Ast2.argAtoms, openLabel, closeLabel, h1, h2,
          Ast2.atoms_append]
  | @scope l inner sv cs _ _ ih1 ih2 =>
    intro b out h
    obtain ⟨i, hi⟩ := yields_total 0 inner
    obtain ⟨o, ho⟩ := yields_total b cs
    have := yields_unique h (.scope hi ho)
    cases i with
    | error f => simp [scopeOutcome] at this
    | ok i =>
      cases o with
      | error f => simp [scopeOutcome, before] at this
      | ok o =>
        simp only [scopeOutcome, before, Except.ok.injEq] at this
        subst this
        simp [Ast3.atoms, ChunkVariant.atoms, Scope.atoms, Scope.variant, atoms_paragraphs,
          Ast2.atoms, Ast2.ChunkVariant.atoms, Ast2.Scope.atoms, Ast2.Scope.variant, ih1 0 i hi, ih2 b o ho]
  | @command l label args cs hd _ _ ih1 ih2 =>
    intro b out h
    obtain ⟨items, rfl, hi⟩ := yield_items (args := args) fun x _ => yields_total 0 x.2.chunks
    obtain ⟨o, ho⟩ := yields_total b cs
    have := yields_unique h (.command hd hi ho)
    cases ha : argOutcome items with
    | error f => simp [commandOutcome, ha] at this
    | ok args =>
      cases o with
      | error f => simp [commandOutcome, ha, before] at this
      | ok o =>
        simp only [commandOutcome, ha, before, Except.ok.injEq] at this
        subst this
        have h1 := argAtoms_same ha fun x hx out ho => ih1 x.1 (List.mem_map.2 ⟨x, hx, rfl⟩) 0 out (ho ▸ hi x hx)
        simp only [Ast3.atoms, atoms_append, ChunkVariant.atoms, Command.atom,
          Ast2.atoms, Ast2.ChunkVariant.atoms, Ast2.Command.atom, h1, ih2 b o ho, List.append_nil]
  | @environment l label args body pb pe cs _ _ _ ih1 ih2 ih3 =>
    intro b out h
    obtain ⟨items, rfl, hi⟩ := yield_items (args := args) fun x _ => yields_total 0 x.2.chunks
    obtain ⟨i, hi'⟩ := yields_total 0 body
    obtain ⟨o, ho⟩ := yields_total b cs
    have := yields_unique h (.environment hi hi' ho)
    cases ha : argOutcome items with
    | error f => simp [environmentOutcome, ha] at this
    | ok args =>
      cases i with
      | error f => simp [environmentOutcome, ha] at this
      | ok i =>
        cases o with
        | error f => simp [environmentOutcome, ha, before] at this
        | ok o =>
          simp only [environmentOutcome, ha, before, Except.ok.injEq] at this
          subst this
          have h1 := argAtoms_same ha fun x hx out ho => ih1 x.1 (List.mem_map.2 ⟨x, hx, rfl⟩) 0 out (ho ▸ hi x hx)
          simp only [Ast3.atoms, atoms_append, ChunkVariant.atoms, Environment.atom, atoms_paragraphs,
            Ast2.atoms, Ast2.ChunkVariant.atoms, Ast2.Environment.atom, h1, ih2 0 i hi', ih3 b o ho, List.append_nil]

theorem atoms_maths {cs out} (h : mathsFromChunks cs = .ok out) (hk : KeepsText cs) : Ast3.atoms out = Ast2.atoms cs := by
  obtain ⟨o, ho, he⟩ := yields_iff.1 h
  cases o with
  | error f => simp [inParagraphs] at he
  | ok o =>
    simp only [inParagraphs, Except.ok.injEq] at he
    subst he
    rw [atoms_paragraphs]
    exact hk.atoms 0 o ho

end LatexAst.Ast3
