import Verif.Proofs.Join3

/-!
# C112: cutting, pasting and building stage-3 documents
-/

namespace LatexAst.Ast3
open Spec

/-- The chunks can stand in a document. -/
structure Sound (cs : List Chunk) : Prop where
  recognisable : Recognisable cs
  stage2 : Ast2.Survives (spelled cs)
  calm : Calm cs

theorem atoms3_append (a b : List Chunk) : atoms (a ++ b) = atoms a ++ atoms b := by
  induction a with
  | nil => simp [atoms]
  | cons c a ih => obtain ⟨l, v⟩ := c; simp [atoms, ih, List.append_assoc]

theorem atoms_spelled_append (a b : List Chunk) : Ast2.atoms (spelled (a ++ b)) = Ast2.atoms (spelled a) ++ Ast2.atoms (spelled b) := by
  rw [atoms_spelled, atoms_spelled, atoms_spelled, atoms3_append]

theorem stage2_append (a b : List Chunk) : Ast2.Survives (spelled (a ++ b)) ↔ Ast2.Survives (spelled a) ∧ Ast2.Survives (spelled b) ∧ Ast2.Touches (spelled a) (spelled b) :=
  Ast2.survives_merge (neat_spelled a) (neat_spelled b) (neat_spelled _) (atoms_spelled_append a b)

theorem sound_append (a b : List Chunk) : Sound (a ++ b) ↔ Sound a ∧ Sound b ∧ Seam a b ∧ Ast2.Touches (spelled a) (spelled b) := by
  constructor
  · rintro ⟨h1, h2, h3⟩
    rw [recognisable_append] at h1
    rw [stage2_append] at h2
    rw [calm_append] at h3
    exact ⟨⟨h1.1, h2.1, h3.1⟩, ⟨h1.2.1, h2.2.1, h3.2⟩, h1.2.2, h2.2.2⟩
  · rintro ⟨⟨h1, h2, h3⟩, ⟨g1, g2, g3⟩, h4, h5⟩
    exact ⟨recognisable_append.2 ⟨h1, g1, h4⟩, (stage2_append a b).2 ⟨h2, g2, h5⟩, calm_append.2 ⟨h3, g3⟩⟩

theorem joins_environment {a : List Ast2.Chunk} {l e} : Ast2.Joins a [.mk l (.environment e)] := by
  refine ⟨?_, ?_, ?_, ?_⟩
  · intro i l t l' t' r _ h; simp at h
  · intro i l x name args l' t r _ _ h; simp at h
  · intro i l env l' t r _ h; simp at h
  · intro i w w' l v r _ h _ _
    cases w' with
    | nil => simp at h; obtain ⟨⟨_, rfl⟩, _⟩ := h; exact ⟨fun _ h => (by cases h), fun _ _ h => (by cases h)⟩
    | cons _ w' => simp at h

theorem survives_environment_empty : Ast2.Survives [.mk 0 (.environment (.mk chars!"document" [] [] [] []))] :=
  ⟨[.mk 1 (.environment (.mk chars!"document" [] [] [] []))], by decide +kernel,
    by simp [Ast2.SameButLines, Ast2.Retexted, Ast2.RetextedV, Ast2.RetextedArgs]⟩

theorem calm_empty : Calm [] := calm_nil

/-- Which fragments survive. -/
theorem fragment_iff (cs : List Chunk) : Survives (fragment cs) ↔ Sound cs ∧ (∀ c ∈ spelled cs, isBody c = false) ∧
    classNames (classArgs (spelled cs)) = [] ∧ (optionLists (classArgs (spelled cs))).flatMap readOptions = [] := by
  have e1 : Ast2.Survives (fragment cs).spelled ↔ Ast2.Survives (spelled cs) := by
    have : (fragment cs).spelled = spelled cs ++ [.mk 0 (.environment (.mk chars!"document" [] [] [] []))] := rfl
    rw [this, Ast2.C108]
    exact ⟨And.left, fun h => ⟨h, survives_environment_empty, joins_environment⟩⟩
  rw [C110_exact]
  constructor
  · rintro ⟨⟨_, h2, h3, _, _, _, h7, h8, h9, h10⟩, h11⟩
    refine ⟨⟨h3, e1.1 h2, h11.1⟩, fun c hc => h7 c (.inl hc), ?_, readsLists_iff.1 h10⟩
    exact List.head?_eq_none_iff.1 h9.symm
  · rintro ⟨⟨h1, h2, h3⟩, h4, h5, h6⟩
    refine ⟨⟨rfl, e1.2 h2, h1, fun _ h => (by cases h), .nil, .nil, ?_, ?_, ?_, readsLists_iff.2 h6⟩, h3, fun _ h => (by cases h), calm_nil, calm_nil⟩
    · rintro c (hc | hc)
      · exact h4 c hc
      · simp [fragment, spelled, spellOnto] at hc
    · rintro a l args b he
      have he : spelled cs = a ++ .mk l (.command (.mk chars!"documentclass" args)) :: b := he
      rw [he, classArgs_append, classNames_append, List.append_eq_nil_iff] at h5
      refine ⟨h5.1, ?_⟩
      have : classArgs (.mk l (.command (.mk chars!"documentclass" args)) :: b) = args ++ classArgs b := by simp [classArgs]
      rw [this, classNames_append, List.append_eq_nil_iff] at h5
      rw [h5.2.1]
      decide
    · show none = _
      rw [show (fragment cs).preamable = cs from rfl, h5]; rfl

/-- C112: two sequences of chunks, one after the other, survive saving and loading exactly if each of them does and they may be joined. -/
theorem C112 (a b : List Chunk) : Survives (fragment (a ++ b)) ↔
    Survives (fragment a) ∧ Survives (fragment b) ∧ Seam a b ∧ Ast2.Touches (spelled a) (spelled b) := by
  rw [fragment_iff, fragment_iff, fragment_iff, sound_append]
  have e1 : (∀ c ∈ spelled (a ++ b), isBody c = false) ↔ (∀ c ∈ spelled a, isBody c = false) ∧ ∀ c ∈ spelled b, isBody c = false := by
    rw [isBody_atoms, isBody_atoms, isBody_atoms, atoms_spelled_append]
    simp only [List.mem_append, not_or]
    exact ⟨fun h => ⟨fun A C pb pe => (h A C pb pe).1, fun A C pb pe => (h A C pb pe).2⟩, fun h A C pb pe => ⟨h.1 A C pb pe, h.2 A C pb pe⟩⟩
  have e2 : Ast2.atoms (spelled (a ++ b)) = Ast2.atoms (spelled a ++ spelled b) := by rw [atoms_spelled_append, Ast2.atoms_append]
  have e3 := (class_same e2).1
  have e4 := (class_same e2).2
  rw [classArgs_append, classNames_append] at e3
  rw [classArgs_append, optionLists_append] at e4
  rw [e1, e3, e4, List.append_eq_nil_iff, List.flatMap_append, List.append_eq_nil_iff]
  constructor
  · rintro ⟨⟨h1, h2, h3, h4⟩, ⟨h5, h6⟩, ⟨h7, h8⟩, h9, h10⟩
    exact ⟨⟨h1, h5, h7, h9⟩, ⟨h2, h6, h8, h10⟩, h3, h4⟩
  · rintro ⟨⟨h1, h5, h7, h9⟩, ⟨h2, h6, h8, h10⟩, h3, h4⟩
    exact ⟨⟨h1, h2, h3, h4⟩, ⟨h5, h6⟩, ⟨h7, h8⟩, h9, h10⟩

theorem survives_afterBegin : Ast2.Survives afterBegin := ⟨_, by decide +kernel, Ast2.same_refl _⟩

theorem neat_afterBegin {cs : List Ast2.Chunk} (h : Ast2.NeatSeq cs) : Ast2.NeatSeq (afterBegin ++ cs) :=
  ⟨⟨trivial, trivial⟩, h, fun ⟨_, h⟩ => (by cases h)⟩

/-- Which sequences may be the body of a document. -/
theorem body_iff (f : Document) (h : Survives f) (b : List Chunk) :
    Survives { f with body := b } ↔ Sound b ∧ Ast2.Touches afterBegin (spelled b) := by
  obtain ⟨hl, hc⟩ := (C110_exact f).1 h
  have h2 := hl.stage2
  unfold Document.spelled at h2
  rw [show ∀ (x : List Ast2.Chunk) c y, x ++ c :: y = x ++ [c] ++ y by intros; simp, Ast2.C108, Ast2.C108, Ast2.C108_environment] at h2
  obtain ⟨⟨a1, ⟨a2, a3, a4, a5, a6, a7⟩, a8⟩, a9, a10⟩ := h2
  have e : Ast2.Survives ({ f with body := b } : Document).spelled ↔ Ast2.Survives (spelled b) ∧ Ast2.Touches afterBegin (spelled b) := by
    unfold Document.spelled
    rw [show ∀ (x : List Ast2.Chunk) c y, x ++ c :: y = x ++ [c] ++ y by intros; simp, Ast2.C108, Ast2.C108, Ast2.C108_environment]
    rw [show Ast2.Joins [.mk 1 (.command (.mk ['x'] [([], .mk [] .curly)]))] (spelled b) ↔ Ast2.Touches afterBegin (spelled b) from
      Ast2.joins_touches (neat_afterBegin (neat_spelled b))]
    constructor
    · rintro ⟨⟨_, ⟨_, _, _, _, b6, b7⟩, _⟩, _, _⟩; exact ⟨b6, b7⟩
    · rintro ⟨b6, b7⟩
      refine ⟨⟨a1, ⟨a2, a3, a4, a5, b6, b7⟩, joins_environment⟩, a9, ?_⟩
      obtain ⟨c1, c2, c3, c4⟩ := a10
      refine ⟨?_, ?_, ?_, ?_⟩
      · intro i l t l' t' r he; have := (List.append_inj' he rfl).2; simp at this
      · intro i l x name args l' t r he; have := (List.append_inj' he rfl).2; simp at this
      · intro i l env l' t r he hb y z hy
        exact c3 _ _ _ l' t r rfl hb y z hy
      · intro i w w' l v r he hb hcmd hw
        rcases List.eq_nil_or_concat w with rfl | ⟨w0, x, rfl⟩
        · refine c4 (spelled f.preamable ++ [_]) [] w' l v r (by rw [List.append_nil]) hb ?_ hw
          exact ⟨_, _, _, rfl, .inr ⟨_, rfl⟩⟩
        · rw [List.concat_eq_append, ← List.append_assoc] at he
          have hx := (List.append_inj' he rfl).2
          simp at hx
          exfalso
          rcases hw with hw | ⟨l, t, hw, _⟩
          · simp at hw
          · have : x ∈ [Ast2.Chunk.mk l (.text t)] := by rw [← hw]; simp
            simp at this
            rw [← hx] at this
            simp at this
  rw [C110_exact]
  constructor
  · rintro ⟨g1, g2⟩
    obtain ⟨k1, k2⟩ := e.1 g1.stage2
    exact ⟨⟨g1.body, k1, g2.2.2.1⟩, k2⟩
  · rintro ⟨⟨k1, k2, k3⟩, k4⟩
    exact ⟨⟨hl.blanks, e.2 ⟨k2, k4⟩, hl.preamble, hl.bodyArgs, k1, hl.trailing, hl.one, hl.classes, hl.documentclass, hl.options⟩, hc.1, hc.2.1, k3, hc.2.2.2⟩

/-- C112: a sequence of chunks that survives on its own may be the body of any document that survives, if it may follow a letter command with an
argument. -/
theorem C112_body (f : Document) (h : Survives f) (b : List Chunk) (hb : Survives (fragment b)) :
    Survives { f with body := b } ↔ Ast2.Touches afterBegin (spelled b) := by
  rw [body_iff f h]
  exact ⟨And.right, fun g => ⟨((fragment_iff b).1 hb).1, g⟩⟩

/-- C112: a part of the body is cut out and another, which survives on its own, is pasted in its place: the new document survives exactly if the
new part may be joined on both sides. -/
theorem C112_replace (f : Document) (a m m' b : List Chunk) (h : Survives { f with body := a ++ m ++ b }) (hm : Survives (fragment m')) :
    Survives { f with body := a ++ m' ++ b } ↔
      (Seam a m' ∧ Ast2.Touches (afterBegin ++ spelled a) (spelled m')) ∧
      Seam (a ++ m') b ∧ Ast2.Touches (afterBegin ++ spelled (a ++ m')) (spelled b) := by
  have key : ∀ cs, Sound cs ∧ Ast2.Touches afterBegin (spelled cs) ↔ Recognisable cs ∧ Calm cs ∧ Ast2.Survives (afterBegin ++ spelled cs) := by
    intro cs
    rw [Ast2.C108, Ast2.joins_touches (neat_afterBegin (neat_spelled cs))]
    constructor
    · rintro ⟨⟨g1, g2, g3⟩, g4⟩; exact ⟨g1, g3, survives_afterBegin, g2, g4⟩
    · rintro ⟨g1, g3, _, g2, g4⟩; exact ⟨⟨g1, g2, g3⟩, g4⟩
  have split : ∀ x y, Ast2.Survives (afterBegin ++ spelled (x ++ y)) ↔ Ast2.Survives (afterBegin ++ spelled x) ∧ Ast2.Survives (spelled y) ∧
      Ast2.Touches (afterBegin ++ spelled x) (spelled y) := fun x y =>
    Ast2.survives_merge (neat_afterBegin (neat_spelled x)) (neat_spelled y) (neat_afterBegin (neat_spelled _))
      (by rw [Ast2.atoms_append, Ast2.atoms_append, atoms_spelled_append, List.append_assoc])
  have hb := (body_iff _ h (a ++ m ++ b)).1 h
  rw [key, split, split, recognisable_append, recognisable_append, calm_append, calm_append] at hb
  have hm' := ((fragment_iff m').1 hm).1
  rw [show Survives { f with body := a ++ m' ++ b } ↔ _ from body_iff _ h (a ++ m' ++ b)]
  rw [key, split, split, recognisable_append, recognisable_append, calm_append, calm_append]
  constructor
  · rintro ⟨⟨⟨_, _, h1⟩, _, h3⟩, _, ⟨_, _, h2⟩, _, h4⟩
    exact ⟨⟨h1, h2⟩, h3, h4⟩
  · rintro ⟨⟨h1, h2⟩, h3, h4⟩
    exact ⟨⟨⟨hb.1.1.1, hm'.recognisable, h1⟩, hb.1.2.1, h3⟩, ⟨⟨hb.2.1.1.1, hm'.calm⟩, hb.2.1.2⟩, ⟨hb.2.2.1.1, hm'.stage2, h2⟩, hb.2.2.2.1, h4⟩

/-- C112: a part of the body may be cut out exactly if what is left may be joined. -/
theorem C112_cut (f : Document) (a m b : List Chunk) (h : Survives { f with body := a ++ m ++ b }) :
    Survives { f with body := a ++ b } ↔ Seam a b ∧ Ast2.Touches (afterBegin ++ spelled a) (spelled b) := by
  have hn : Survives (fragment []) := (fragment_iff []).2 ⟨⟨.nil, Ast2.C108_nil, calm_nil⟩, by simp [spelled, spellOnto], rfl, rfl⟩
  have ht : ∀ x, Ast2.Touches x (spelled []) := by
    intro x
    refine ⟨?_, ?_, ?_⟩
    · intro i l x name args l' t r _ _ h; cases h
    · intro i l env l' t r _ h; cases h
    · intro i w w' l v r _ h; simp [spelled, spellOnto] at h
  have hs : Seam a [] := by intro i l v l' v' r _ h; cases h
  have := C112_replace f a m [] b h hn
  simp only [List.append_nil] at this
  rw [this]
  exact ⟨And.right, fun g => ⟨⟨hs, ht _⟩, g⟩⟩

/-- A formula in dollar signs. -/
def oneFormula : List Chunk := [.mk 0 (.mathsBlock (.mk .dollars .inline [.mk 0 (.text chars!"a+b")]))]
/-- A text. -/
def oneText (t : Str) : List Chunk := [.mk 0 (.text t)]
/-- A command without arguments. -/
def oneCommand : List Chunk := [.mk 0 (.command (.mk chars!"foo" []))]

/-- C112: a text and a formula may be joined, a command and a text that begins with a blank, too; two texts may not, nor a command and a text that
does not begin with a blank; all of the parts survive on their own. -/
theorem C112_example :
    (Survives (fragment (oneText chars!"x " ++ oneFormula)) ∧ Seam (oneText chars!"x ") oneFormula ∧
      Ast2.Touches (spelled (oneText chars!"x ")) (spelled oneFormula)) ∧
    Survives (fragment (oneCommand ++ oneText chars!" y")) ∧
    (Survives (fragment (oneText chars!"x")) ∧ Survives (fragment oneCommand)) ∧
    (¬ Survives (fragment (oneText chars!"x" ++ oneText chars!"x")) ∧ ¬ Seam (oneText chars!"x") (oneText chars!"x")) ∧
    (¬ Survives (fragment (oneCommand ++ oneText chars!"x")) ∧ Seam oneCommand (oneText chars!"x") ∧
      ¬ Ast2.Touches (spelled oneCommand) (spelled (oneText chars!"x"))) := by
  have h1 := (survives_comesBack (fragment (oneText chars!"x " ++ oneFormula))).2 (by decide +kernel)
  have h2 := (survives_comesBack (fragment (oneCommand ++ oneText chars!" y"))).2 (by decide +kernel)
  have h3 := (survives_comesBack (fragment (oneText chars!"x"))).2 (by decide +kernel)
  have h4 := (survives_comesBack (fragment oneCommand)).2 (by decide +kernel)
  have s1 : ¬ Seam (oneText chars!"x") (oneText chars!"x") := fun h => (h [] _ _ _ _ [] rfl rfl).1 _ _ rfl rfl
  have s2 : Seam oneCommand (oneText chars!"x") := by
    rintro i l v l' v' r ha hb
    have := (List.append_inj' (s₁ := []) ha rfl).2
    simp at this
    obtain ⟨_, rfl⟩ := this
    exact ⟨fun _ _ h => (by cases h), fun _ _ h => (by cases h), fun _ _ h => (by cases h), fun _ _ h => (by cases h)⟩
  have t2 : ¬ Ast2.Touches (spelled oneCommand) (spelled (oneText chars!"x")) := by
    intro h
    obtain ⟨y, z, he, hy⟩ := (h.1 [] 0 'f' chars!"oo" [] 0 chars!"x" [] rfl (by decide) rfl).1 rfl
    cases he
    exact absurd hy (by decide)
  have c1 := (C112 _ _).1 h1
  refine ⟨⟨h1, c1.2.2⟩, h2, ⟨h3, h4⟩, ⟨fun h => s1 ((C112 _ _).1 h).2.2.1, s1⟩, fun h => t2 ((C112 _ _).1 h).2.2.2, s2, t2⟩

/-- C112: in the document with the body `x$a+b$y` the formula is replaced by a command: it may be if the text after it begins with a blank. -/
theorem C112_replace_example :
    Survives { fragment [] with body := oneText chars!"x" ++ oneFormula ++ oneText chars!" y" } ∧
    Survives { fragment [] with body := oneText chars!"x" ++ oneCommand ++ oneText chars!" y" } ∧
    Survives { fragment [] with body := oneText chars!"x" ++ oneFormula ++ oneText chars!"y" } ∧
    ¬ Survives { fragment [] with body := oneText chars!"x" ++ oneCommand ++ oneText chars!"y" } ∧
    ¬ Survives { fragment [] with body := oneText chars!"x" ++ oneText chars!"y" } := by
  have h3 := (survives_comesBack { fragment [] with body := oneText chars!"x" ++ oneFormula ++ oneText chars!"y" }).2 (by decide +kernel)
  refine ⟨(survives_comesBack { fragment [] with body := oneText chars!"x" ++ oneFormula ++ oneText chars!" y" }).2 (by decide +kernel),
    (survives_comesBack { fragment [] with body := oneText chars!"x" ++ oneCommand ++ oneText chars!" y" }).2 (by decide +kernel),
    h3, ?_, fun h => ?_⟩
  · rw [survives_comesBack]; decide +kernel
  · exact (((C112_cut (fragment []) _ _ _ h3).1 h).1 [] _ _ _ _ [] rfl rfl).1 _ _ rfl rfl

end LatexAst.Ast3
