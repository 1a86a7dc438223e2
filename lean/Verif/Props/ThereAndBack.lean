import Verif.Proofs.Atoms1
import Verif.Model.Eq3

/-!
# Going to stage 3 and back to stage 2 (C109)

`Spec/Atoms.lean` defines `Alike` (the same, apart from line numbers and from how texts are cut up) and `PartsKept`.
-/

namespace LatexAst.Ast3

/-- C109, for the chunks of a sequence: what comes back from stage 3 is alike if and only if all maths is kept. -/
theorem C109_chunks (cs : List Ast2.Chunk) (out : List Chunk) (cs' : List Ast2.Chunk)
    (h : mathsFromChunks cs = .ok out) (h' : intoChunks out = .ok cs') : Ast2.Alike cs' cs ↔ KeepsText cs := by
  constructor
  · intro ha
    refine (mathsFromChunks_keeps h).1 ?_
    rw [← ha.display]
    rcases into_spec out with ⟨_, x, h1, h2⟩ | ⟨_, h1⟩
    · rw [h'] at h1; cases h1; exact h2.symm
    · rw [h'] at h1; cases h1
  · intro hk
    unfold Ast2.Alike
    rw [atoms_into h', atoms_maths h hk]

/-- C109, for the chunks of a sequence: it is alike if and only if it is printed alike. -/
theorem C109_printed (cs : List Ast2.Chunk) (out : List Chunk) (cs' : List Ast2.Chunk)
    (h : mathsFromChunks cs = .ok out) (h' : intoChunks out = .ok cs') :
    Ast2.Alike cs' cs ↔ Ast2.displayChunks cs' = Ast2.displayChunks cs := by
  refine ⟨fun ha => ha.display, fun hd => (C109_chunks cs out cs' h h').2 ((mathsFromChunks_keeps h).1 ?_)⟩
  rw [← hd]
  rcases into_spec out with ⟨_, x, h1, h2⟩ | ⟨_, h1⟩
  · rw [h'] at h1; cases h1; exact h2.symm
  · rw [h'] at h1; cases h1

theorem length_parts (e : List Ast2.Chunk) :
    (Ast2.displayChunks e).length = (Ast2.displayChunks (preambleOf e)).length +
      (Ast2.displayChunks (trailingOf e)).length + (Ast2.displayChunks (bodiesOf e)).length := by
  have key : ∀ x : List Ast2.Chunk, (Ast2.displayChunks x).length =
      (Ast2.displayChunks (x.filter fun c => !isBody c)).length + (Ast2.displayChunks (x.filter isBody)).length := by
    intro x
    induction x with
    | nil => rfl
    | cons c x ih =>
      simp only [Ast2.displayChunks, List.length_append, ih]
      cases hb : isBody c <;> simp [hb, Ast2.displayChunks] <;> omega
  have h1 : (preambleOf e).filter isBody = [] := by
    rw [List.filter_eq_nil_iff]
    intro c hc
    have := List.all_eq_true.1 (List.all_takeWhile (l := e) (p := fun c => !isBody c)) c hc
    simpa using this
  have h2 : bodiesOf e = (e.dropWhile fun c => !isBody c).filter isBody := by
    conv => lhs; rw [bodiesOf, ← List.takeWhile_append_dropWhile (p := fun c => !isBody c) (l := e)]
    rw [List.filter_append]
    show (preambleOf e).filter isBody ++ _ = _
    rw [h1]; rfl
  have h3 := key (e.dropWhile fun c => !isBody c)
  conv => lhs; rw [← List.takeWhile_append_dropWhile (p := fun c => !isBody c) (l := e)]
  rw [display2_append, List.length_append, h3, h2]
  show (Ast2.displayChunks (preambleOf e)).length + _ = _
  rw [trailingOf]
  omega

theorem body_atom {a : Ast2.Atom} {args content pb pe} {cs : List Ast2.Chunk} (ha : a = .environment chars!"document" args content pb pe)
    (hm : a ∈ Ast2.atoms cs) : ∃ c ∈ cs, isBody c = true := by
  induction cs with
  | nil => cases hm
  | cons c cs ih =>
    obtain ⟨l, v⟩ := c
    simp only [Ast2.atoms, List.mem_append] at hm
    rcases hm with hm | hm
    · refine ⟨_, .head _, ?_⟩
      subst ha
      cases v with
      | text t => simp [Ast2.ChunkVariant.atoms] at hm
      | scope s => simp [Ast2.ChunkVariant.atoms] at hm
      | command c => obtain ⟨_, _⟩ := c; simp [Ast2.ChunkVariant.atoms, Ast2.Command.atom] at hm
      | environment e =>
        obtain ⟨label, _, _, _, _⟩ := e
        simp only [Ast2.ChunkVariant.atoms, Ast2.Environment.atom, List.mem_singleton, Ast2.Atom.environment.injEq] at hm
        simp [isBody, ← hm.1]
    · obtain ⟨c, hc, hb⟩ := ih hm
      exact ⟨c, .tail _ hc, hb⟩

theorem atoms_toAst2 {f e} (h : toAst2 f = .ok e) : Ast2.atoms e = atoms f.preamable ++
    (.environment chars!"document" (argAtoms f.bodyArgs) (atoms f.body) f.bodyBeginPrec f.bodyEndPrec :: atoms f.trailing) := by
  cases (C61 f e).1 h with
  | mk h1 h2 h3 h4 h5 _ _ _ =>
    rw [Ast2.atoms_append, Ast2.atoms, Ast2.atoms_joinTexts, Ast2.atoms_shift, atoms_unfolds h1, atoms_unfolds h5]
    simp only [Ast2.ChunkVariant.atoms, Ast2.Environment.atom, Ast2.atoms_shift, atoms_unfolds h2]
    rw [argAtoms_items _ fun x hx => atoms_unfolds (h4 x hx), h3]
    rfl

theorem argAtoms_tryArgs {args : List (Str × Ast2.Scope)} {args'} (h : tryArgs mathsFromChunks args = .ok args')
    (hk : ∀ x ∈ args, KeepsText x.2.chunks) : argAtoms args' = Ast2.argAtoms args := by
  induction args generalizing args' with
  | nil => simp [tryArgs] at h; subst h; simp [argAtoms, Ast2.argAtoms]
  | cons x r ih =>
    obtain ⟨p, ⟨inner, sv⟩⟩ := x
    simp only [tryArgs, tryScope] at h
    cases h1 : mathsFromChunks inner with
    | error f => simp [h1] at h
    | ok out =>
      cases h2 : tryArgs mathsFromChunks r with
      | error f => simp [h1, h2] at h
      | ok r' =>
        simp [h1, h2] at h
        subst h
        have g1 := ih h2 fun x hx => hk x (.tail _ hx)
        have g2 := atoms_maths h1 (hk _ (.head _))
        simp [argAtoms, Ast2.argAtoms, g1, Scope.atoms, Ast2.Scope.atoms, Scope.variant, Ast2.Scope.variant, atoms_paragraphs, g2]

/-- C109: a document that is converted to stage 3 and back to stage 2 comes back the same, apart from line numbers and from
how its texts are cut up, if and only if it has exactly one document environment, and all maths in and around it is kept. -/
theorem C109 (e : Ast2.Document) (f : Document) (e' : Ast2.Document) (h : tryFrom e = .ok f) (h' : toAst2 f = .ok e') :
    Ast2.Alike e' e ↔ PartsKept e := by
  constructor
  · intro ha
    have hd := ha.display
    rw [(C41_partial f e' h').1] at hd
    have ha : Ast2.atoms e' = Ast2.atoms e := ha
    rw [atoms_toAst2 h'] at ha
    have hone : ∃ pre post l args content pb pe, e = pre ++ .mk l (.environment (.mk chars!"document" args content pb pe)) :: post ∧
        (∀ c ∈ pre, isBody c = false) ∧ (∀ c ∈ post, isBody c = false) := by
      have hlen := length_parts e
      cases hr : (C57 _ _).1 h with
      | document _ _ hpre htr hbd _ =>
        have l1 := mathsFromChunks_le (becomes_iff.1 hpre)
        have l2 := mathsFromChunks_le (becomes_iff.1 htr)
        cases hbd with
        | none hn =>
          exfalso
          obtain ⟨c, hc, hb⟩ := body_atom (cs := e) rfl (by rw [← ha]; exact List.mem_append_right _ (.head _))
          have : c ∈ bodiesOf e := List.mem_filter.2 ⟨hc, hb⟩
          rw [hn] at this
          cases this
        | @last x c l env hl hc =>
          have l3 := mathsFromChunks_le (becomes_iff.1 hc)
          have hx : x = [] := by
            cases x with
            | nil => rfl
            | cons y x =>
              exfalso
              have hy : isBody y = true := by
                have : y ∈ bodiesOf e := by rw [hl]; simp
                exact (List.mem_filter.1 this).2
              obtain ⟨_, _, _, _, _, rfl⟩ := isBody_iff.1 hy
              rw [hl, display2_append, ← hd, Document.written, Ast2.displayChunks, display_body2] at hlen
              simp only [displayChunks, Chunk.display, ChunkVariant.display, Environment.display] at l3
              simp at hlen l3
              omega
          subst hx
          have hm : isBody c = true := by
            have : c ∈ bodiesOf e := by rw [hl]; simp
            exact (List.mem_filter.1 this).2
          obtain ⟨pre, post, hep, g1, -, g2⟩ := List.filter_eq_cons_iff.1 hl
          rw [List.filter_eq_nil_iff] at g2
          obtain ⟨l, args, content, pb, pe, rfl⟩ := isBody_iff.1 hm
          exact ⟨pre, post, l, args, content, pb, pe, hep, fun c hc => by simpa using g1 c hc, fun c hc => by simpa using g2 c hc⟩
    obtain ⟨pre, post, l, args, content, pb, pe, rfl, hpre, hpost⟩ := hone
    refine ⟨pre, post, l, args, content, pb, pe, rfl, hpre, hpost, ?_⟩
    obtain ⟨pre', args', content', post', h1, h2, h3, h4, rfl⟩ := sections_body h hpre hpost
    have k1 := mathsFromChunks_keeps h1
    have k2 := tryArgs_keeps h2
    have k3 := mathsFromChunks_keeps h3
    have k4 := mathsFromChunks_keeps h4
    have l1 := mathsFromChunks_le h1
    have l3 := mathsFromChunks_le h3
    have l4 := mathsFromChunks_le h4
    rw [Document.written, display2_append, Ast2.displayChunks, display_body2] at hd
    rw [← k1, ← k2.2, ← k3, ← k4]
    simp only [List.append_assoc] at hd
    have e1 := append_eq_of_le hd l1 (by have := k2.1; simp; omega)
    have e2 := e1.2
    simp only [List.append_cancel_left_eq] at e2
    have e2 := append_eq_of_le e2 k2.1 (by simp; omega)
    have e3 := append_eq_of_le e2.2 l3 (by simp; omega)
    have e4 := e3.2
    simp only [List.append_cancel_left_eq] at e4
    exact ⟨e1.1, e2.1, e3.1, e4⟩
  · rintro ⟨pre, post, l, args, content, pb, pe, rfl, hpre, hpost, k1, k2, k3, k4⟩
    obtain ⟨pre', args', content', post', h1, h2, h3, h4, rfl⟩ := sections_body h hpre hpost
    show Ast2.atoms e' = _
    rw [atoms_toAst2 h', Ast2.atoms_append, Ast2.atoms]
    simp only [Ast2.ChunkVariant.atoms, Ast2.Environment.atom]
    rw [atoms_maths h1 k1, argAtoms_tryArgs h2 k2, atoms_maths h3 k3, atoms_maths h4 k4]
    simp

/-- C109, otherwise: if there is no document environment, and all maths is kept, an empty one comes back at the end. -/
theorem C109_no_body (e : Ast2.Document) (f : Document) (e' : Ast2.Document) (h : tryFrom e = .ok f) (h' : toAst2 f = .ok e')
    (hb : ∀ c ∈ e, isBody c = false) (hk : KeepsText e) :
    Ast2.Alike e' (e ++ [.mk 1 (.environment (.mk chars!"document" [] [] [] []))]) := by
  obtain ⟨pre, h1, rfl⟩ := sections_no_body h hb
  show Ast2.atoms e' = _
  rw [atoms_toAst2 h', Ast2.atoms_append, atoms_maths h1 hk]
  simp [classDocument, Document.default, atoms, argAtoms, Ast2.atoms, Ast2.ChunkVariant.atoms, Ast2.Environment.atom, Ast2.argAtoms]

/-- A document with a formula between two texts. -/
def backAgain : Ast2.Document := [.mk 1 (.text chars!"a\n"),
  .mk 2 (.environment (.mk chars!"document" [] [.mk 1 (.text chars!"x $y$\n\nz")] [] chars!" "))]

/-- It goes to stage 3 and comes back, alike but not the same: its text is now in several pieces. -/
theorem C109_example : ∃ f e', tryFrom backAgain = .ok f ∧ toAst2 f = .ok e' ∧ Ast2.Alike e' backAgain ∧ e' ≠ backAgain := by
  have h : (match tryFrom backAgain with
      | .ok f => (match toAst2 f with
        | .ok e' => !Ast2.beqChunks e' backAgain
        | _ => false)
      | _ => false) = true := by decide +kernel
  split at h
  · rename_i f hf
    split at h
    · rename_i e' he
      refine ⟨f, e', hf, he, (C109 _ _ _ hf he).2 ?_, ?_⟩
      case refine_2 =>
        rintro rfl
        rw [(Ast2.beqChunks_iff _ _).2 rfl] at h
        cases h
      refine ⟨[.mk 1 (.text chars!"a\n")], [], 2, [], [.mk 1 (.text chars!"x $y$\n\nz")], [], chars!" ", rfl,
        by simp [isBody], by simp, .text (by decide) .nil, by simp, ?_, .nil⟩
      exact .inline (q := chars!"x ") (r := chars!"y$\n\nz") (p := ⟨1, chars!"y", chars!"\n\nz", []⟩) (kept := []) (by decide)
        (.here (q := []) (x := chars!"y") (by decide)) (.inr (by simp)) (.text (by decide) .nil) (.text (by decide) .nil)
    · cases h
  · cases h

/-- In `$a\alpha b$` the `a` leaves the formula, so what comes back is not alike. -/
theorem C109_moved : ∃ e f e', Ast2.fromStr chars!"\n\\begin{document}$a\\alpha b$\\end{document}" = .ok e ∧ tryFrom e = .ok f ∧
    toAst2 f = .ok e' ∧ ¬ Ast2.Alike e' e ∧ ¬ PartsKept e := by
  have h : (match Ast2.fromStr chars!"\n\\begin{document}$a\\alpha b$\\end{document}" with
      | .ok e => (match tryFrom e with
        | .ok f => (match toAst2 f with
          | .ok e' => Ast2.displayChunks e' != Ast2.displayChunks e
          | _ => false)
        | _ => false)
      | _ => false) = true := by decide +kernel
  split at h
  · rename_i e he
    split at h
    · rename_i f hf
      split at h
      · rename_i e' he'
        have hn : ¬ Ast2.Alike e' e := fun ha => by simp [ha.display] at h
        exact ⟨e, f, e', he, hf, he', hn, fun hk => hn ((C109 _ _ _ hf he').2 hk)⟩
      · cases h
    · cases h
  · cases h

end LatexAst.Ast3
