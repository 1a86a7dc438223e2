import Verif.Proofs.Load3d
import Verif.Props.Paste2
import Verif.Props.PrintsBack3
import Verif.Props.ThereAndBack
import Verif.Props.DocumentRule

/-!
# Saving and loading stage-3 documents
-/

namespace LatexAst.Ast2
open Spec

/-! ### neat sequences are determined by their atoms, apart from lines -/

theorem text_split {t : Str} {a : List Chunk} {b : List Chunk} (ha : NeatSeq a) (hs : ¬ StartsText a) (ht : t ≠ [])
    (hb : NeatSeq b) (he : t.map .char ++ atoms a = atoms b) :
    ∃ l r, b = .mk l (.text t) :: r ∧ NeatSeq r ∧ atoms r = atoms a := by
  obtain ⟨c, t, rfl⟩ := List.exists_cons_of_ne_nil ht
  obtain ⟨l, u, r, rfl, h1, h2, h3⟩ := neat_text_first (c := c) (A := t.map .char ++ atoms a) hb (by rw [← he]; rfl)
  have he' : u.map .char ++ atoms r = (c :: t).map .char ++ atoms a := h3
  obtain ⟨u', rfl, h4⟩ := chars_prefix h1 h2 he'
  have hu : u' = [] := by
    cases u' with
    | nil => rfl
    | cons d u' =>
      exfalso
      rcases first_atom ha hs with rfl | ⟨_, _, _, x, _, _, _, h5, h6⟩
      · simp [atoms] at h4
      · rw [h6] at h4
        simp at h4
        rw [← h4.1] at h5
        exact h5 trivial
  subst hu
  exact ⟨l, r, by rw [List.append_nil], h1, by simpa using h4⟩

mutual
theorem neat_same : ∀ {a b : List Chunk}, NeatSeq a → NeatSeq b → atoms a = atoms b → Retexted (fun t t' => t' = t) a b
  | [], b, _, hb, he => by
    cases b with
    | nil => simp [Retexted]
    | cons c b =>
      exfalso
      obtain ⟨l, v⟩ := c
      cases v with
      | text t => rw [atoms_cons_text] at he; simp [atoms] at he; exact hb.1 he.1
      | _ => simp [atoms, ChunkVariant.atoms] at he
  | .mk l (.text t) :: a, b, ha, hb, he => by
    rw [atoms_cons_text] at he
    obtain ⟨l', r, rfl, h1, h2⟩ := text_split ha.2.1 (ha.2.2 ⟨t, rfl⟩) ha.1 hb he
    simp only [Retexted, RetextedV, true_and]
    exact neat_same ha.2.1 h1 h2.symm
  | .mk l (.scope (.mk inner sv)) :: a, b, ha, hb, he => by
    simp only [atoms, ChunkVariant.atoms, Scope.variant, Scope.atoms, List.cons_append, List.nil_append] at he
    obtain ⟨m, v, r, rfl, h1, h2, h3, h4⟩ := neat_first (Ast3.atoms_scope_node _ _) hb he.symm
    obtain ⟨inner', rfl, h5⟩ := scope_of_atom h1
    simp only [Retexted, RetextedV, true_and]
    exact ⟨neat_same ha.1 h2 h5.symm, neat_same ha.2.1 h3 h4.symm⟩
  | .mk l (.command (.mk label args)) :: a, b, ha, hb, he => by
    simp only [atoms, ChunkVariant.atoms, Command.atom, List.cons_append, List.nil_append] at he
    obtain ⟨m, v, r, rfl, h1, h2, h3, h4⟩ := neat_first (Ast3.atoms_command_node _ _) hb he.symm
    obtain ⟨args', rfl, h5⟩ := command_of_atom h1
    simp only [Retexted, RetextedV, true_and]
    exact ⟨neat_sameArgs ha.1 h2 h5.symm, neat_same ha.2.1 h3 h4.symm⟩
  | .mk l (.environment (.mk label args content pb pe)) :: a, b, ha, hb, he => by
    simp only [atoms, ChunkVariant.atoms, Environment.atom, List.cons_append, List.nil_append] at he
    obtain ⟨m, v, r, rfl, h1, h2, h3, h4⟩ := neat_first (Ast3.atoms_environment_node _ _ _ _ _) hb he.symm
    obtain ⟨args', content', rfl, h5, h6⟩ := environment_of_atom h1
    simp only [Retexted, RetextedV, true_and, and_true]
    exact ⟨⟨neat_sameArgs ha.1.1 h2.1 h5.symm, neat_same ha.1.2 h2.2 h6.symm⟩, neat_same ha.2.1 h3 h4.symm⟩
theorem neat_sameArgs : ∀ {a b : List (Str × Scope)}, NeatArgs a → NeatArgs b → argAtoms a = argAtoms b → RetextedArgs (fun t t' => t' = t) a b
  | [], b, _, _, he => by
    rw [argAtoms_nil he.symm]; simp [RetextedArgs]
  | (p, .mk inner sv) :: a, b, ha, hb, he => by
    match b, hb, he with
    | [], hb, he => simp [argAtoms] at he
    | (p', .mk inner' sv') :: b, hb, he =>
      simp only [argAtoms, List.cons.injEq, AtomArg.mk.injEq, Scope.variant, Scope.atoms] at he
      obtain ⟨⟨rfl, rfl, h1⟩, h2⟩ := he
      simp only [RetextedArgs, true_and]
      exact ⟨neat_same ha.1 hb.1 h1, neat_sameArgs ha.2 hb.2 h2⟩
end

/-! ### documents that are the same apart from lines -/

mutual
theorem same_atomsV : ∀ {v w : ChunkVariant}, RetextedV (fun t t' => t' = t) v w → v.atoms = w.atoms
  | .text t, .text t', h => by simp only [RetextedV] at h; rw [h]
  | .scope (.mk a sv), .scope (.mk a' sv'), h => by
    simp only [RetextedV] at h
    simp [ChunkVariant.atoms, Scope.variant, Scope.atoms, h.1, same_atoms h.2]
  | .command (.mk label args), .command (.mk label' args'), h => by
    simp only [RetextedV] at h
    simp [ChunkVariant.atoms, Command.atom, h.1, same_argAtoms h.2]
  | .environment (.mk label args content pb pe), .environment (.mk label' args' content' pb' pe'), h => by
    simp only [RetextedV] at h
    simp [ChunkVariant.atoms, Environment.atom, h.1, same_argAtoms h.2.1, same_atoms h.2.2.1, h.2.2.2.1, h.2.2.2.2]
  | .text _, .scope _, h => by simp [RetextedV] at h
  | .text _, .command _, h => by simp [RetextedV] at h
  | .text _, .environment _, h => by simp [RetextedV] at h
  | .scope (.mk ..), .text _, h => by simp [RetextedV] at h
  | .scope (.mk ..), .command _, h => by simp [RetextedV] at h
  | .scope (.mk ..), .environment _, h => by simp [RetextedV] at h
  | .command (.mk ..), .text _, h => by simp [RetextedV] at h
  | .command (.mk ..), .scope _, h => by simp [RetextedV] at h
  | .command (.mk ..), .environment _, h => by simp [RetextedV] at h
  | .environment (.mk ..), .text _, h => by simp [RetextedV] at h
  | .environment (.mk ..), .scope _, h => by simp [RetextedV] at h
  | .environment (.mk ..), .command _, h => by simp [RetextedV] at h
theorem same_atoms : ∀ {a b : List Chunk}, Retexted (fun t t' => t' = t) a b → atoms a = atoms b
  | [], [], _ => rfl
  | .mk _ v :: a, .mk _ w :: b, h => by
    simp only [Retexted] at h
    simp only [atoms, same_atomsV h.1, same_atoms h.2]
  | [], _ :: _, h => by simp [Retexted] at h
  | .mk _ _ :: _, [], h => by simp [Retexted] at h
theorem same_argAtoms : ∀ {a b : List (Str × Scope)}, RetextedArgs (fun t t' => t' = t) a b → argAtoms a = argAtoms b
  | [], [], _ => rfl
  | (p, .mk a v) :: r, (p', .mk a' v') :: r', h => by
    simp only [RetextedArgs] at h
    simp [argAtoms, Scope.variant, Scope.atoms, h.1, h.2.1, same_atoms h.2.2.1, same_argAtoms h.2.2.2]
  | [], _ :: _, h => by simp [RetextedArgs] at h
  | (_, .mk ..) :: _, [], h => by simp [RetextedArgs] at h
end

/-! ### what survives is neat -/

mutual
theorem survives_neatV : ∀ (l : Nat) (v : ChunkVariant), Survives [.mk l v] → v.Neat
  | l, .text t, h => ((C108_text l t).1 h).1
  | l, .scope (.mk inner sv), h => survives_neat inner ((C108_scope l inner sv).1 h).2.1
  | l, .command (.mk label args), h => by
    refine survives_neatArgs args ?_
    intro p inner sv hm
    rcases ((C108_command l label args).1 h).2.2 with ⟨_, h1⟩ | ⟨c, _, _, rfl⟩
    · exact (h1 p inner sv hm).2.1
    · cases hm
  | l, .environment (.mk label args content pb pe), h => by
    have h1 := (C108_environment l label args content pb pe).1 h
    exact ⟨survives_neatArgs args fun p inner sv hm => (h1.2.2.2.1 p inner sv hm).2.1, survives_neat content h1.2.2.2.2.1⟩
theorem survives_neatArgs : ∀ args : List (Str × Scope), (∀ p inner sv, (p, Scope.mk inner sv) ∈ args → Survives inner) → NeatArgs args
  | [], _ => trivial
  | (p, .mk inner sv) :: r, h => ⟨survives_neat inner (h p inner sv (.head _)), survives_neatArgs r fun p i s hm => h p i s (.tail _ hm)⟩
theorem survives_neat : ∀ cs : List Chunk, Survives cs → NeatSeq cs
  | [], _ => trivial
  | .mk l v :: cs, h => by
    obtain ⟨h1, h2, h3⟩ := (C108 [.mk l v] cs).1 h
    refine ⟨survives_neatV l v h1, survives_neat cs h2, ?_⟩
    rintro ⟨t, rfl⟩ hs
    obtain ⟨l', t', r, rfl⟩ := startsText_iff.1 hs
    exact h3.1 [] _ _ _ _ _ rfl rfl
end

mutual
theorem same_neatV : ∀ {v w : ChunkVariant}, RetextedV (fun t t' => t' = t) v w → v.Neat → w.Neat
  | .text t, .text t', h, hn => by simp only [RetextedV] at h; rw [h]; exact hn
  | .scope (.mk a sv), .scope (.mk a' sv'), h, hn => by
    simp only [RetextedV] at h
    exact same_neat h.2 hn
  | .command (.mk label args), .command (.mk label' args'), h, hn => by
    simp only [RetextedV] at h
    exact same_neatArgs h.2 hn
  | .environment (.mk label args content pb pe), .environment (.mk label' args' content' pb' pe'), h, hn => by
    simp only [RetextedV] at h
    exact ⟨same_neatArgs h.2.1 hn.1, same_neat h.2.2.1 hn.2⟩
  | .text _, .scope _, h, _ => by simp [RetextedV] at h
  | .text _, .command _, h, _ => by simp [RetextedV] at h
  | .text _, .environment _, h, _ => by simp [RetextedV] at h
  | .scope (.mk ..), .text _, h, _ => by simp [RetextedV] at h
  | .scope (.mk ..), .command _, h, _ => by simp [RetextedV] at h
  | .scope (.mk ..), .environment _, h, _ => by simp [RetextedV] at h
  | .command (.mk ..), .text _, h, _ => by simp [RetextedV] at h
  | .command (.mk ..), .scope _, h, _ => by simp [RetextedV] at h
  | .command (.mk ..), .environment _, h, _ => by simp [RetextedV] at h
  | .environment (.mk ..), .text _, h, _ => by simp [RetextedV] at h
  | .environment (.mk ..), .scope _, h, _ => by simp [RetextedV] at h
  | .environment (.mk ..), .command _, h, _ => by simp [RetextedV] at h
theorem same_neat : ∀ {a b : List Chunk}, Retexted (fun t t' => t' = t) a b → NeatSeq a → NeatSeq b
  | [], [], _, _ => trivial
  | .mk _ v :: a, .mk _ w :: b, h, hn => by
    simp only [Retexted] at h
    refine ⟨same_neatV h.1 hn.1, same_neat h.2 hn.2.1, ?_⟩
    rintro ⟨t, rfl⟩ hs
    obtain ⟨l', t', r, rfl⟩ := startsText_iff.1 hs
    have hv : ∃ t, v = .text t := by
      match v, h.1 with
      | .text t, _ => exact ⟨t, rfl⟩
      | .scope (.mk ..), h => simp [RetextedV] at h
      | .command (.mk ..), h => simp [RetextedV] at h
      | .environment (.mk ..), h => simp [RetextedV] at h
    apply hn.2.2 hv
    match a, h.2 with
    | .mk _ (.text _) :: _, _ => trivial
    | .mk _ (.scope (.mk ..)) :: _, h => simp [Retexted, RetextedV] at h
    | .mk _ (.command (.mk ..)) :: _, h => simp [Retexted, RetextedV] at h
    | .mk _ (.environment (.mk ..)) :: _, h => simp [Retexted, RetextedV] at h
  | [], _ :: _, h, _ => by simp [Retexted] at h
  | .mk _ _ :: _, [], h, _ => by simp [Retexted] at h
theorem same_neatArgs : ∀ {a b : List (Str × Scope)}, RetextedArgs (fun t t' => t' = t) a b → NeatArgs a → NeatArgs b
  | [], [], _, _ => trivial
  | (p, .mk a v) :: r, (p', .mk a' v') :: r', h, hn => by
    simp only [RetextedArgs] at h
    exact ⟨same_neat h.2.2.1 hn.1, same_neatArgs h.2.2.2 hn.2⟩
  | [], _ :: _, h, _ => by simp [RetextedArgs] at h
  | (_, .mk ..) :: _, [], h, _ => by simp [RetextedArgs] at h
end

end LatexAst.Ast2

namespace LatexAst.Ast3
open Spec

/-! ### the class and the options are read off the atoms -/

/-- The arguments of the `\documentclass` commands. -/
def atomClass : List Ast2.Atom → List Ast2.AtomArg
  | [] => []
  | .command label args :: A => if label = chars!"documentclass" then args ++ atomClass A else atomClass A
  | _ :: A => atomClass A

theorem atomClass_append (A B : List Ast2.Atom) : atomClass (A ++ B) = atomClass A ++ atomClass B := by
  induction A with
  | nil => rfl
  | cons a A ih =>
    cases a with
    | command label args => simp only [List.cons_append, atomClass, ih]; split <;> simp
    | _ => simp only [List.cons_append, atomClass, ih]

theorem atomClass_chars (t : Str) : atomClass (t.map .char) = [] := by
  induction t with
  | nil => rfl
  | cons c t ih => simpa [atomClass] using ih

theorem argAtoms2_append (a b : List (Str × Ast2.Scope)) : Ast2.argAtoms (a ++ b) = Ast2.argAtoms a ++ Ast2.argAtoms b := by
  induction a with
  | nil => rfl
  | cons x a ih => obtain ⟨p, s⟩ := x; simp [Ast2.argAtoms, ih]

theorem classArgs_atoms (cs : List Ast2.Chunk) : Ast2.argAtoms (classArgs cs) = atomClass (Ast2.atoms cs) := by
  induction cs with
  | nil => rfl
  | cons c cs ih =>
    obtain ⟨l, v⟩ := c
    cases v with
    | text t => simp only [classArgs, Ast2.atoms, Ast2.ChunkVariant.atoms, atomClass_append, atomClass_chars, ih, List.nil_append]
    | scope s => simp only [classArgs, Ast2.atoms, Ast2.ChunkVariant.atoms, ih, List.cons_append, List.nil_append, atomClass]
    | environment e =>
      obtain ⟨label, args, content, pb, pe⟩ := e
      simp only [classArgs, Ast2.atoms, Ast2.ChunkVariant.atoms, Ast2.Environment.atom, ih, List.cons_append, List.nil_append, atomClass]
    | command c =>
      obtain ⟨label, args⟩ := c
      simp only [classArgs, Ast2.atoms, Ast2.ChunkVariant.atoms, Ast2.Command.atom, List.cons_append, List.nil_append, atomClass]
      split
      · rw [argAtoms2_append, ih]
      · exact ih

theorem classNames_atoms : ∀ {a b : List (Str × Ast2.Scope)}, Ast2.argAtoms a = Ast2.argAtoms b →
    classNames a = classNames b ∧ optionLists a = optionLists b
  | [], b, h => by rw [Ast2.argAtoms_nil h.symm]; exact ⟨rfl, rfl⟩
  | (p, .mk inner sv) :: a, [], h => by simp [Ast2.argAtoms] at h
  | (p, .mk inner sv) :: a, (p', .mk inner' sv') :: b, h => by
    simp only [Ast2.argAtoms, List.cons.injEq, Ast2.AtomArg.mk.injEq, Ast2.Scope.variant, Ast2.Scope.atoms] at h
    obtain ⟨⟨rfl, rfl, h1⟩, h2⟩ := h
    obtain ⟨h3, h4⟩ := classNames_atoms h2
    have h5 : Ast2.displayChunks inner = Ast2.displayChunks inner' := by rw [← Ast2.print_atoms, ← Ast2.print_atoms, h1]
    cases sv <;> simp [classNames, optionLists, h3, h4, h5]

theorem class_same {a b : List Ast2.Chunk} (h : Ast2.atoms a = Ast2.atoms b) :
    classNames (classArgs a) = classNames (classArgs b) ∧ optionLists (classArgs a) = optionLists (classArgs b) :=
  classNames_atoms (by rw [classArgs_atoms, classArgs_atoms, h])

theorem classesOk_same {a b : List Ast2.Chunk} (h : Ast2.atoms a = Ast2.atoms b) (hok : ClassesOk a) : ClassesOk b := by
  rintro x l args y rfl
  rw [Ast2.atoms_append] at h
  simp only [Ast2.atoms, Ast2.ChunkVariant.atoms, Ast2.Command.atom, List.cons_append, List.nil_append] at h
  obtain ⟨d₁, l', v, d₂, rfl, h1, h2, _, _⟩ := Ast2.split_node (atoms_command_node _ _) h
  obtain ⟨args', rfl, h3⟩ := Ast2.command_of_atom h2
  obtain ⟨h4, h5⟩ := hok _ _ _ _ rfl
  rw [(class_same h1).1] at h4
  rw [(classNames_atoms h3).1] at h5
  exact ⟨h4, h5⟩

theorem isBody_atoms (cs : List Ast2.Chunk) : (∀ c ∈ cs, isBody c = false) ↔
    ∀ A C pb pe, Ast2.Atom.environment chars!"document" A C pb pe ∉ Ast2.atoms cs := by
  constructor
  · intro h A C pb pe hm
    obtain ⟨X, Y, he⟩ := List.append_of_mem hm
    obtain ⟨d₁, l, v, d₂, rfl, _, h2, _, _⟩ := Ast2.split_node (atoms_environment_node _ _ _ _ _) he
    obtain ⟨args, content, rfl, _⟩ := Ast2.environment_of_atom h2
    have := h (.mk l (.environment (.mk chars!"document" args content pb pe))) (by simp)
    simp [isBody] at this
  · intro h c hc
    cases hb : isBody c with
    | false => rfl
    | true =>
      exfalso
      obtain ⟨l, args, content, pb, pe, rfl⟩ := isBody_cases hb
      obtain ⟨X, Y, rfl⟩ := List.append_of_mem hc
      refine h (Ast2.argAtoms args) (Ast2.atoms content) pb pe ?_
      rw [Ast2.atoms_append]
      simp [Ast2.atoms, Ast2.ChunkVariant.atoms, Ast2.Environment.atom]

theorem isBody_same {a b : List Ast2.Chunk} (h : Ast2.atoms a = Ast2.atoms b) : (∀ c ∈ a, isBody c = false) → ∀ c ∈ b, isBody c = false := by
  rw [isBody_atoms, isBody_atoms, h]; exact id

/-! ### the whole document -/

/-- The atoms of a document. -/
def Document.atoms (f : Document) : List Ast2.Atom :=
  Ast3.atoms f.preamable ++
    .environment chars!"document" (argAtoms f.bodyArgs) (Ast3.atoms f.body) f.bodyBeginPrec f.bodyEndPrec :: Ast3.atoms f.trailing

theorem atoms_document (f : Document) : Ast2.atoms f.spelled = f.atoms := by
  simp only [Document.spelled, Document.atoms, Ast2.atoms_append, Ast2.atoms, Ast2.ChunkVariant.atoms, Ast2.Environment.atom, atoms_spelled,
    argAtoms_spell, List.cons_append, List.nil_append]

theorem neat_around {a b : List Ast2.Chunk} {l : Nat} {v : Ast2.ChunkVariant} (ha : Ast2.NeatSeq a) (hv : v.Neat) (ht : ∀ t, v ≠ .text t) (hb : Ast2.NeatSeq b) :
    Ast2.NeatSeq (a ++ .mk l v :: b) := by
  induction a with
  | nil => exact ⟨hv, hb, fun ⟨t, h⟩ => absurd h (ht t)⟩
  | cons c a ih =>
    obtain ⟨l', w⟩ := c
    refine ⟨ha.1, ih ha.2.1, fun h hs => ha.2.2 h ?_⟩
    cases a with
    | nil =>
      cases v with
      | text t => exact absurd rfl (ht t)
      | _ => cases hs
    | cons d a => obtain ⟨_, x⟩ := d; cases x <;> simp_all [Ast2.StartsText]

theorem neat_document (f : Document) : Ast2.NeatSeq f.spelled :=
  neat_around (neat_spelled _) ⟨neat_spellArgs _, neat_spelled _⟩ (by intro t h; cases h) (neat_spelled _)

theorem display_spelled {f : Document} (h : f.bodyBeginPrec = f.bodyEndPrec) : Ast2.displayChunks f.spelled = f.display := by
  rw [← Ast2.print_atoms, atoms_document, display_document]
  simp only [Document.atoms, Ast2.printAtoms_append, print_atoms3, Ast2.printAtoms, Ast2.Atom.print, print_argAtoms3, ← h]
  simp [List.append_assoc]

end LatexAst.Ast3
