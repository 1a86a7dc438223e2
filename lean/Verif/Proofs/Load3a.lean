import Verif.Spec.Load3
import Verif.Proofs.Atoms1

/-!
# Stage-2 documents without empty texts and texts next to each other
-/

namespace LatexAst.Ast2

/-- The sequence begins with a text. -/
def StartsText : List Chunk → Prop
  | .mk _ (.text _) :: _ => True
  | _ => False

mutual
/-- No empty text, and no text next to a text, in the node. -/
def ChunkVariant.Neat : ChunkVariant → Prop
  | .text t => t ≠ []
  | .scope s => s.Neat
  | .command c => c.Neat
  | .environment e => e.Neat
def Command.Neat : Command → Prop
  | .mk _ args => NeatArgs args
def Scope.Neat : Scope → Prop
  | .mk inner _ => NeatSeq inner
def Environment.Neat : Environment → Prop
  | .mk _ args content _ _ => NeatArgs args ∧ NeatSeq content
def NeatArgs : List (Str × Scope) → Prop
  | [] => True
  | (_, s) :: r => s.Neat ∧ NeatArgs r
def NeatSeq : List Chunk → Prop
  | [] => True
  | .mk _ v :: cs => v.Neat ∧ NeatSeq cs ∧ ((∃ t, v = .text t) → ¬ StartsText cs)
end

theorem neatArgs_iff (args : List (Str × Scope)) : NeatArgs args ↔ ∀ x ∈ args, NeatSeq x.2.chunks := by
  induction args with
  | nil => simp [NeatArgs]
  | cons x r ih =>
    obtain ⟨p, ⟨inner, v⟩⟩ := x
    simp [NeatArgs, ih, Scope.Neat, Scope.chunks]

theorem startsText_iff {cs : List Chunk} : StartsText cs ↔ ∃ l t r, cs = .mk l (.text t) :: r := by
  cases cs with
  | nil => simp [StartsText]
  | cons c cs =>
    obtain ⟨l, v⟩ := c
    cases v <;> simp [StartsText]

/-- The atom is a character. -/
def Atom.IsChar : Atom → Prop
  | .char _ => True
  | _ => False

theorem node_atoms {v : ChunkVariant} (h : ∀ t, v ≠ .text t) : ∃ a, v.atoms = [a] ∧ ¬ a.IsChar := by
  cases v with
  | text t => exact absurd rfl (h t)
  | scope s => exact ⟨.scope s.variant s.atoms, by simp only [ChunkVariant.atoms], by simp [Atom.IsChar]⟩
  | command c => obtain ⟨n, a⟩ := c; exact ⟨.command n (argAtoms a), by simp only [ChunkVariant.atoms, Command.atom], by simp [Atom.IsChar]⟩
  | environment e =>
    obtain ⟨n, a, c, pb, pe⟩ := e
    exact ⟨.environment n (argAtoms a) (atoms c) pb pe, by simp only [ChunkVariant.atoms, Environment.atom], by simp [Atom.IsChar]⟩

theorem atoms_cons_text (l : Nat) (t : Str) (cs : List Chunk) : atoms (.mk l (.text t) :: cs) = t.map .char ++ atoms cs := by
  simp [atoms, ChunkVariant.atoms]

/-- Neat chunks that do not begin with a text do not begin with a character. -/
theorem first_atom {cs : List Chunk} (h : NeatSeq cs) (hs : ¬ StartsText cs) :
    cs = [] ∨ ∃ l v r a, cs = .mk l v :: r ∧ (∀ t, v ≠ .text t) ∧ v.atoms = [a] ∧ ¬ a.IsChar ∧ atoms cs = a :: atoms r := by
  cases cs with
  | nil => exact .inl rfl
  | cons c r =>
    obtain ⟨l, v⟩ := c
    have hv : ∀ t, v ≠ .text t := by rintro t rfl; exact hs trivial
    obtain ⟨a, h1, h2⟩ := node_atoms hv
    exact .inr ⟨l, v, r, a, rfl, hv, h1, h2, by simp [atoms, h1]⟩

/-- Characters at the front are the text at the front. -/
theorem chars_prefix {u t : Str} {cs : List Chunk} {A : List Atom} (h : NeatSeq cs) (hs : ¬ StartsText cs)
    (he : u.map .char ++ atoms cs = t.map .char ++ A) : ∃ u', u = t ++ u' ∧ u'.map .char ++ atoms cs = A := by
  induction t generalizing u with
  | nil => exact ⟨u, rfl, he⟩
  | cons c t ih =>
    cases u with
    | nil =>
      exfalso
      rcases first_atom h hs with rfl | ⟨l, v, r, a, rfl, _, _, h2, h3⟩
      · simp [atoms] at he
      · rw [h3] at he
        simp at he
        rw [he.1] at h2
        exact h2 trivial
    | cons c' u =>
      simp only [List.map_cons, List.cons_append, List.cons.injEq, Atom.char.injEq] at he
      obtain ⟨rfl, he⟩ := he
      obtain ⟨u', h1, h2⟩ := ih he
      exact ⟨u', by rw [h1]; rfl, h2⟩

/-- If no character is at the front there is no text. -/
theorem chars_none {u : Str} {cs : List Chunk} {a : Atom} {A : List Atom} (ha : ¬ a.IsChar)
    (he : u.map .char ++ atoms cs = a :: A) : u = [] ∧ atoms cs = a :: A := by
  cases u with
  | nil => exact ⟨rfl, he⟩
  | cons c u =>
    simp at he
    rw [← he.1] at ha
    exact absurd trivial ha

/-- The chunks are divided where their atoms are, at a node. -/
theorem split_node {A B : List Atom} {n : Atom} (hn : ¬ n.IsChar) : ∀ {cs : List Chunk}, atoms cs = A ++ n :: B →
    ∃ d₁ l v d₂, cs = d₁ ++ .mk l v :: d₂ ∧ atoms d₁ = A ∧ v.atoms = [n] ∧ (∀ t, v ≠ .text t) ∧ atoms d₂ = B := by
  intro cs
  induction cs generalizing A with
  | nil => intro h; simp [atoms] at h
  | cons c cs ih =>
    obtain ⟨l, v⟩ := c
    intro h
    have hcases : (∃ t, v = .text t) ∨ ∀ t, v ≠ .text t := by
      cases v with
      | text t => exact .inl ⟨t, rfl⟩
      | _ => exact .inr (by intro t h; cases h)
    rcases hcases with ⟨t, rfl⟩ | hv
    · rw [atoms_cons_text] at h
      rcases List.append_eq_append_iff.1 h with ⟨A', h1, h2⟩ | ⟨B', h1, h2⟩
      · obtain ⟨d₁, l', v', d₂, g1, g2, g3, g4, g5⟩ := ih h2
        exact ⟨.mk l (.text t) :: d₁, l', v', d₂, by rw [g1]; rfl, by rw [atoms_cons_text, g2, h1], g3, g4, g5⟩
      · cases B' with
        | nil =>
          simp only [List.nil_append] at h2
          obtain ⟨d₁, l', v', d₂, g1, g2, g3, g4, g5⟩ := ih (A := []) (by simpa using h2.symm)
          refine ⟨.mk l (.text t) :: d₁, l', v', d₂, by rw [g1]; rfl, ?_, g3, g4, g5⟩
          rw [atoms_cons_text, g2]; simpa using h1
        | cons b B' =>
          exfalso
          simp only [List.cons_append, List.cons.injEq] at h2
          have : b ∈ t.map Atom.char := by rw [h1]; simp
          obtain ⟨c, _, rfl⟩ := List.mem_map.1 this
          rw [h2.1] at hn
          exact hn trivial
    · obtain ⟨a, h1, h2⟩ := node_atoms hv
      simp only [atoms, h1] at h
      cases A with
      | nil =>
        simp only [List.nil_append, List.cons_append, List.cons.injEq] at h
        exact ⟨[], l, v, cs, rfl, rfl, by rw [h1, h.1], hv, h.2⟩
      | cons x A =>
        simp only [List.cons_append, List.nil_append, List.cons.injEq] at h
        obtain ⟨d₁, l', v', d₂, g1, g2, g3, g4, g5⟩ := ih h.2
        exact ⟨.mk l v :: d₁, l', v', d₂, by rw [g1]; rfl, by simp [atoms, h1, g2, h.1], g3, g4, g5⟩

theorem neat_append {a b : List Chunk} (h : NeatSeq (a ++ b)) : NeatSeq a ∧ NeatSeq b := by
  induction a with
  | nil => exact ⟨trivial, h⟩
  | cons c a ih =>
    obtain ⟨l, v⟩ := c
    obtain ⟨h1, h2, h3⟩ : _ ∧ _ ∧ _ := by simpa only [List.cons_append, NeatSeq] using h
    obtain ⟨g1, g2⟩ := ih h2
    refine ⟨⟨h1, g1, fun ht hs => h3 ht ?_⟩, g2⟩
    cases a with
    | nil => cases hs
    | cons c' a => obtain ⟨l', v'⟩ := c'; cases v' <;> simp_all [StartsText]

/-- What is a sequence of nodes at the front of the atoms is one in the chunks. -/
theorem split_nodes {ms : List Atom} {A : List Atom} (hm : ∀ m ∈ ms, ¬ m.IsChar) : ∀ {cs : List Chunk}, NeatSeq cs → atoms cs = ms ++ A →
    ∃ d₁ d₂, cs = d₁ ++ d₂ ∧ atoms d₁ = ms ∧ (∀ c ∈ d₁, Ast3.NotText c) ∧ atoms d₂ = A := by
  induction ms with
  | nil => intro cs _ h; exact ⟨[], cs, rfl, rfl, by simp, h⟩
  | cons m ms ih =>
    intro cs hn h
    cases cs with
    | nil => simp [atoms] at h
    | cons c cs =>
      obtain ⟨l, v⟩ := c
      have hv : ∀ t, v ≠ .text t := by
        rintro t rfl
        rw [atoms_cons_text] at h
        cases t with
        | nil => exact hn.1 rfl
        | cons x t =>
          simp at h
          exact hm m (.head _) (by rw [← h.1]; trivial)
      obtain ⟨a, h1, _⟩ := node_atoms hv
      simp only [atoms, h1, List.cons_append, List.nil_append, List.cons.injEq] at h
      obtain ⟨d₁, d₂, g1, g2, g3, g4⟩ := ih (fun x hx => hm x (.tail _ hx)) hn.2.1 h.2
      refine ⟨.mk l v :: d₁, d₂, by rw [g1]; rfl, by simp [atoms, h1, g2, h.1], ?_, g4⟩
      intro c hc
      rcases List.mem_cons.1 hc with rfl | hc
      · exact hv
      · exact g3 c hc

theorem scope_of_atom {v : ChunkVariant} {sv A} (h : v.atoms = [.scope sv A]) : ∃ inner, v = .scope (.mk inner sv) ∧ atoms inner = A := by
  cases v with
  | text t =>
    match t, h with
    | [], h => simp [ChunkVariant.atoms] at h
    | _ :: _, h => simp [ChunkVariant.atoms] at h
  | scope s =>
    obtain ⟨inner, sv'⟩ := s
    simp only [ChunkVariant.atoms, Scope.variant, Scope.atoms, List.cons.injEq, Atom.scope.injEq, and_true] at h
    exact ⟨inner, by rw [h.1], h.2⟩
  | command c => obtain ⟨n, a⟩ := c; simp [ChunkVariant.atoms, Command.atom] at h
  | environment e => obtain ⟨n, a, c, pb, pe⟩ := e; simp [ChunkVariant.atoms, Environment.atom] at h

theorem command_of_atom {v : ChunkVariant} {label A} (h : v.atoms = [.command label A]) : ∃ args, v = .command (.mk label args) ∧ argAtoms args = A := by
  cases v with
  | text t =>
    match t, h with
    | [], h => simp [ChunkVariant.atoms] at h
    | _ :: _, h => simp [ChunkVariant.atoms] at h
  | scope s => simp [ChunkVariant.atoms] at h
  | command c =>
    obtain ⟨n, a⟩ := c
    simp only [ChunkVariant.atoms, Command.atom, List.cons.injEq, Atom.command.injEq, and_true] at h
    exact ⟨a, by rw [h.1], h.2⟩
  | environment e => obtain ⟨n, a, c, pb, pe⟩ := e; simp [ChunkVariant.atoms, Environment.atom] at h

theorem environment_of_atom {v : ChunkVariant} {label A C pb pe} (h : v.atoms = [.environment label A C pb pe]) :
    ∃ args content, v = .environment (.mk label args content pb pe) ∧ argAtoms args = A ∧ atoms content = C := by
  cases v with
  | text t =>
    match t, h with
    | [], h => simp [ChunkVariant.atoms] at h
    | _ :: _, h => simp [ChunkVariant.atoms] at h
  | scope s => simp [ChunkVariant.atoms] at h
  | command c => obtain ⟨n, a⟩ := c; simp [ChunkVariant.atoms, Command.atom] at h
  | environment e =>
    obtain ⟨n, a, c, pb', pe'⟩ := e
    simp only [ChunkVariant.atoms, Environment.atom, List.cons.injEq, Atom.environment.injEq, and_true] at h
    obtain ⟨rfl, h1, h2, rfl, rfl⟩ := h
    exact ⟨a, c, rfl, h1, h2⟩

theorem argAtoms_nil {args} (h : argAtoms args = []) : args = [] := by
  cases args with
  | nil => rfl
  | cons x r => obtain ⟨_, _⟩ := x; simp [argAtoms] at h

end LatexAst.Ast2

namespace LatexAst.Ast3

theorem atoms_addText (t : Str) (r : List Ast2.Chunk) : Ast2.atoms (addText t r) = t.map .char ++ Ast2.atoms r := by
  unfold addText
  split
  · simp [Ast2.atoms, Ast2.ChunkVariant.atoms]
  · split
    · rename_i h; subst h; rfl
    · rw [Ast2.atoms_cons_text]

theorem neat_addText {t : Str} {r : List Ast2.Chunk} (h : Ast2.NeatSeq r) : Ast2.NeatSeq (addText t r) := by
  unfold addText
  split
  · obtain ⟨h1, h2, h3⟩ : _ ∧ _ ∧ _ := by simpa only [Ast2.NeatSeq] using h
    refine ⟨?_, h2, fun _ => h3 ⟨_, rfl⟩⟩
    simp only [Ast2.ChunkVariant.Neat] at h1 ⊢
    simp [h1]
  · rename_i hn
    split
    · exact h
    · rename_i ht
      refine ⟨ht, h, fun _ hs => ?_⟩
      obtain ⟨l, t', r', rfl⟩ := Ast2.startsText_iff.1 hs
      exact hn _ _ _ rfl

theorem delimAtoms_dollars (k : MathsType) : delimAtoms .dollars k = ((dollarsOf k).map .char, (dollarsOf k).map .char) := by
  cases k <;> rfl

theorem delimAtoms_brackets (k : MathsType) : delimAtoms .brackets k = ([.command (openLabel k) []], [.command (closeLabel k) []]) := by
  cases k <;> rfl

mutual
theorem ChunkVariant.atoms_spell : ∀ (v : ChunkVariant) (tail : List Ast2.Chunk), Ast2.atoms (v.spell tail) = v.atoms ++ Ast2.atoms tail
  | .text t, tail => by simp only [ChunkVariant.spell, ChunkVariant.atoms, atoms_addText]
  | .paragraphBreak t, tail => by simp only [ChunkVariant.spell, ChunkVariant.atoms, atoms_addText]
  | .mathsBlock m, tail => by simp only [ChunkVariant.spell, ChunkVariant.atoms, MathsBlock.atoms_spell m tail]
  | .command c, tail => by
    simp only [ChunkVariant.spell, ChunkVariant.atoms, Ast2.atoms, Ast2.ChunkVariant.atoms, Command.atom_spell c]
  | .scope s, tail => by
    have h := Scope.atoms_spell s
    obtain ⟨inner, v⟩ := s
    simp only [Scope.spell] at h
    simp only [ChunkVariant.spell, ChunkVariant.atoms, Ast2.atoms, Ast2.ChunkVariant.atoms, Scope.spell, h, Scope.variant, Ast2.Scope.variant]
  | .environment e, tail => by
    simp only [ChunkVariant.spell, ChunkVariant.atoms, Ast2.atoms, Ast2.ChunkVariant.atoms, Environment.atom_spell e]
theorem MathsBlock.atoms_spell : ∀ (m : MathsBlock) (tail : List Ast2.Chunk), Ast2.atoms (m.spell tail) = m.atoms ++ Ast2.atoms tail
  | .mk .dollars t content, tail => by
    simp only [MathsBlock.spell, MathsBlock.atoms, atoms_addText, atoms_spellOnto content, delimAtoms_dollars, List.append_assoc]
  | .mk .brackets t content, tail => by
    simp only [MathsBlock.spell, MathsBlock.atoms, Ast2.atoms, Ast2.ChunkVariant.atoms, Ast2.Command.atom, Ast2.argAtoms,
      atoms_spellOnto content, delimAtoms_brackets, List.append_assoc, List.cons_append, List.nil_append]
theorem Command.atom_spell : ∀ c : Command, c.spell.atom = c.atom
  | .mk label args => by simp only [Command.spell, Command.atom, Ast2.Command.atom, argAtoms_spell args]
theorem Scope.atoms_spell : ∀ s : Scope, s.spell.atoms = s.atoms
  | .mk inner v => by simp only [Scope.spell, Scope.atoms, Ast2.Scope.atoms, atoms_spellOnto inner, Ast2.atoms, List.append_nil]
theorem Environment.atom_spell : ∀ e : Environment, e.spell.atom = e.atom
  | .mk label args content pb pe => by
    simp only [Environment.spell, Environment.atom, Ast2.Environment.atom, argAtoms_spell args, atoms_spellOnto content, Ast2.atoms,
      List.append_nil]
theorem argAtoms_spell : ∀ args : List (Str × Scope), Ast2.argAtoms (spellArgs args) = argAtoms args
  | [] => rfl
  | (p, s) :: r => by
    have h := Scope.atoms_spell s
    have h' := argAtoms_spell r
    obtain ⟨inner, v⟩ := s
    simp only [Scope.spell] at h
    simp only [spellArgs, Ast2.argAtoms, argAtoms, Scope.spell, h, h', Scope.variant, Ast2.Scope.variant]
theorem atoms_spellOnto : ∀ (cs : List Chunk) (tail : List Ast2.Chunk), Ast2.atoms (spellOnto cs tail) = atoms cs ++ Ast2.atoms tail
  | [], tail => by simp only [spellOnto, atoms, List.nil_append]
  | .mk l v :: cs, tail => by
    simp only [spellOnto, atoms, ChunkVariant.atoms_spell v, atoms_spellOnto cs, List.append_assoc]
end

theorem atoms_spelled (cs : List Chunk) : Ast2.atoms (spelled cs) = atoms cs := by
  rw [spelled, atoms_spellOnto]; simp [Ast2.atoms]

mutual
theorem ChunkVariant.neat_spell : ∀ (v : ChunkVariant) (tail : List Ast2.Chunk), Ast2.NeatSeq tail → Ast2.NeatSeq (v.spell tail)
  | .text t, tail, h => by simp only [ChunkVariant.spell]; exact neat_addText h
  | .paragraphBreak t, tail, h => by simp only [ChunkVariant.spell]; exact neat_addText h
  | .mathsBlock m, tail, h => by simp only [ChunkVariant.spell]; exact MathsBlock.neat_spell m tail h
  | .command c, tail, h => by
    have g := Command.neat_spell c
    simp only [ChunkVariant.spell, Ast2.NeatSeq, Ast2.ChunkVariant.Neat]
    exact ⟨g, h, by rintro ⟨t, ht⟩; cases ht⟩
  | .scope s, tail, h => by
    have g := Scope.neat_spell s
    simp only [ChunkVariant.spell, Ast2.NeatSeq, Ast2.ChunkVariant.Neat]
    exact ⟨g, h, by rintro ⟨t, ht⟩; cases ht⟩
  | .environment e, tail, h => by
    have g := Environment.neat_spell e
    simp only [ChunkVariant.spell, Ast2.NeatSeq, Ast2.ChunkVariant.Neat]
    exact ⟨g, h, by rintro ⟨t, ht⟩; cases ht⟩
theorem MathsBlock.neat_spell : ∀ (m : MathsBlock) (tail : List Ast2.Chunk), Ast2.NeatSeq tail → Ast2.NeatSeq (m.spell tail)
  | .mk .dollars t content, tail, h => by
    simp only [MathsBlock.spell]
    exact neat_addText (neat_spellOnto content _ (neat_addText h))
  | .mk .brackets t content, tail, h => by
    have g := neat_spellOnto content (.mk 0 (.command (.mk (closeLabel t) [])) :: tail)
      (by simp only [Ast2.NeatSeq, Ast2.ChunkVariant.Neat, Ast2.Command.Neat, Ast2.NeatArgs]; exact ⟨trivial, h, by rintro ⟨t, ht⟩; cases ht⟩)
    simp only [MathsBlock.spell, Ast2.NeatSeq, Ast2.ChunkVariant.Neat, Ast2.Command.Neat, Ast2.NeatArgs]
    exact ⟨trivial, g, by rintro ⟨t, ht⟩; cases ht⟩
theorem Command.neat_spell : ∀ c : Command, c.spell.Neat
  | .mk label args => by simp only [Command.spell, Ast2.Command.Neat]; exact neat_spellArgs args
theorem Scope.neat_spell : ∀ s : Scope, s.spell.Neat
  | .mk inner v => by simp only [Scope.spell, Ast2.Scope.Neat]; exact neat_spellOnto inner [] (by simp [Ast2.NeatSeq])
theorem Environment.neat_spell : ∀ e : Environment, e.spell.Neat
  | .mk label args content pb pe => by
    simp only [Environment.spell, Ast2.Environment.Neat]
    exact ⟨neat_spellArgs args, neat_spellOnto content [] (by simp [Ast2.NeatSeq])⟩
theorem neat_spellArgs : ∀ args : List (Str × Scope), Ast2.NeatArgs (spellArgs args)
  | [] => by simp [spellArgs, Ast2.NeatArgs]
  | (p, s) :: r => by simp only [spellArgs, Ast2.NeatArgs]; exact ⟨Scope.neat_spell s, neat_spellArgs r⟩
theorem neat_spellOnto : ∀ (cs : List Chunk) (tail : List Ast2.Chunk), Ast2.NeatSeq tail → Ast2.NeatSeq (spellOnto cs tail)
  | [], tail, h => by simp only [spellOnto]; exact h
  | .mk l v :: cs, tail, h => by simp only [spellOnto]; exact ChunkVariant.neat_spell v _ (neat_spellOnto cs tail h)
end

theorem neat_spelled (cs : List Chunk) : Ast2.NeatSeq (spelled cs) := neat_spellOnto cs [] (by simp [Ast2.NeatSeq])

end LatexAst.Ast3
