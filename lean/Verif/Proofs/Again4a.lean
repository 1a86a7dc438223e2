import Verif.Proofs.Again3f
import Verif.Proofs.Load3e

/-! Converting to stage 3 and going back: which commands name a class, and which environments are document environments. -/

namespace LatexAst.Ast3
open Spec

/-- A `\documentclass` command with the kinds of its arguments, or a document environment. -/
inductive Mark where
  | cls (kinds : List ScopeVariant)
  | body

def argKind : Ast2.AtomArg → ScopeVariant
  | .mk _ v _ => v

def markOf : Ast2.Atom → Option Mark
  | .command label args => if label = chars!"documentclass" then some (.cls (args.map argKind)) else none
  | .environment label _ _ _ _ => if label = chars!"document" then some .body else none
  | _ => none

def marks (A : List Ast2.Atom) : List Mark := A.filterMap markOf

theorem marks_append (a b) : marks (a ++ b) = marks a ++ marks b := List.filterMap_append

theorem marks_nil : marks [] = [] := rfl

theorem marks_chars (t : Str) : marks (t.map .char) = [] := by
  induction t with
  | nil => rfl
  | cons c t ih => exact ih

theorem marks_scope (v A B) : marks (.scope v A :: B) = marks B := rfl

theorem marks_delims (v k) : marks (delimAtoms v k).1 = [] ∧ marks (delimAtoms v k).2 = [] := by
  cases v <;> cases k <;> exact ⟨rfl, rfl⟩

def marksT (cs : List Chunk) : List Mark := marks (atoms cs)
def marks2 (cs : List Ast2.Chunk) : List Mark := marks (Ast2.atoms cs)

theorem marks2_append (a b) : marks2 (a ++ b) = marks2 a ++ marks2 b := by simp [marks2, Ast2.atoms_append, marks_append]
theorem marks2_cons (c b) : marks2 (c :: b) = marks2 [c] ++ marks2 b := marks2_append [c] b
theorem marksT_append (a b) : marksT (a ++ b) = marksT a ++ marksT b := by simp [marksT, atoms_append, marks_append]
theorem marksT_cons (c b) : marksT (c :: b) = marksT [c] ++ marksT b := marksT_append [c] b

theorem marks2_text (l t) : marks2 [.mk l (.text t)] = [] := by
  simp [marks2, Ast2.atoms, Ast2.ChunkVariant.atoms, marks_chars]

theorem marks2_textIf (l t) : marks2 (textIf2 l t) = [] := by
  unfold textIf2; split
  · rfl
  · exact marks2_text l t

theorem marksT_textIf (l t) : marksT (textIf l t) = [] := by
  unfold textIf; split
  · rfl
  · simp [marksT, atoms, ChunkVariant.atoms, marks_chars]

theorem marks2_delim {l label args} (h : IsDelimiter label) : marks2 [.mk l (.command (.mk label args))] = [] := by
  have : label ≠ chars!"documentclass" := by rintro rfl; revert h; simp [IsDelimiter]
  simp [marks2, Ast2.atoms, Ast2.ChunkVariant.atoms, Ast2.Command.atom, marks, markOf, this]

theorem marks2_open {k l args} : marks2 [.mk l (.command (.mk (openLabel k) args))] = [] :=
  marks2_delim (by cases k <;> simp [IsDelimiter, openLabel])

theorem marks2_close {k l args} : marks2 [.mk l (.command (.mk (closeLabel k) args))] = [] :=
  marks2_delim (by cases k <;> simp [IsDelimiter, closeLabel])

theorem marksT_maths (l v k c) : marksT [.mk l (.mathsBlock (.mk v k c))] = marksT c := by
  simp [marksT, atoms, ChunkVariant.atoms, MathsBlock.atoms, marks_append, marks_delims]

theorem marksT_paragraphs (cs) : marksT (paragraphs cs) = marksT cs := by simp [marksT, atoms_paragraphs]

theorem marks2_count (k cs) : marks2 (cs.map (countFrom k)) = marks2 cs := by simp [marks2, Ast2.atoms_countFrom]

theorem marks_toDollar {p lost kept p'} (h : ToDollar p lost kept p') : marks2 p.rest = marks2 kept ++ marks2 p'.rest ∧ marksT lost = [] := by
  induction h with
  | here => exact ⟨rfl, rfl⟩
  | later _ _ _ ih =>
    refine ⟨?_, ?_⟩
    · simp only [marks2_append, List.append_assoc]
      rw [marks2_cons, marks2_text, List.nil_append, ih.1]
    · rw [marksT_append, marksT_textIf, ih.2]; rfl

theorem marks_formula {p lost type content p'} (h : Formula p lost type content p') :
    marks2 p.rest = marks2 content ++ marks2 p'.rest ∧ marksT lost = [] := by
  cases h with
  | inline h _ =>
    obtain ⟨h1, h2⟩ := marks_toDollar h
    exact ⟨by rw [marks2_append, marks2_textIf, List.append_nil, h1], h2⟩
  | display h1 _ h2 h3 =>
    obtain ⟨a1, b1⟩ := marks_toDollar h1
    obtain ⟨a2, b2⟩ := marks_toDollar h2
    obtain ⟨a3, b3⟩ := marks_toDollar h3
    exact ⟨by rw [marks2_append, marks2_append, marks2_textIf, List.append_nil, a1, a2, a3, List.append_assoc]; rfl,
      by rw [marksT_append, marksT_append, b1, b2, b3]; rfl⟩

theorem marks_inside {k body inner} (h : Inside k body inner) : marks2 inner = marks2 body := by
  induction h with
  | nil => rfl
  | other _ _ ih => rw [marks2_cons, ih, ← marks2_cons]
  | nested _ _ ih1 ih2 =>
    rw [marks2_append, ih1, ih2, marks2_cons, marks2_open, List.nil_append, marks2_append, marks2_cons (.mk _ (.command (.mk (closeLabel k) _))), marks2_close,
      List.nil_append]

theorem kinds_args {items : List ((Str × Ast2.Scope) × Outcome)} : ∀ {args}, argOutcome items = .ok args →
    (argAtoms args).map argKind = (Ast2.argAtoms (items.map (·.1))).map argKind := by
  induction items with
  | nil => intro args h; simp [argOutcome] at h; subst h; rfl
  | cons x items ih =>
    obtain ⟨⟨p, sc⟩, o⟩ := x
    intro args h
    cases o with
    | error f => simp [argOutcome] at h
    | ok raw =>
      simp only [argOutcome] at h
      cases ha : argOutcome items with
      | error f => simp [ha] at h
      | ok as =>
        simp only [ha] at h
        cases h
        simp [argAtoms, Ast2.argAtoms, argKind, Scope.variant, ih ha]

theorem yields_marks {b ds o} (h : Yields b ds o) : ∀ raw, o = .ok raw → marksT raw = marks2 ds := by
  induction h with
  | nil => intro raw hr; cases hr; rfl
  | @text b l t cs o ht hy ih =>
    intro raw hr
    obtain ⟨raw', rfl, rfl⟩ := before_ok hr
    rw [marksT_append, marksT_textIf, ih raw' rfl, marks2_cons, marks2_text]
  | @formula b l q r cs lost type content p i o hq hf hcn hy1 _ ih1 ih2 =>
    intro raw hr
    cases i with
    | error f => simp [blockOutcome] at hr
    | ok ri =>
      obtain ⟨raw', rfl, rfl⟩ := before_ok hr
      obtain ⟨h1, h2⟩ := marks_formula hf
      have h3 := ih2 raw' rfl
      rw [marks2_cons, marks2_text, List.nil_append] at h3
      rw [marksT_append, marksT_append, marksT_append, marksT_textIf, h2, marksT_maths, marksT_paragraphs, ih1 ri rfl, marks2_count, h3,
        marks2_cons (.mk l _), marks2_text]
      simp only [List.nil_append]
      exact h1.symm
  | uncountable => intro raw hr; cases hr
  | unfinished => intro raw hr; cases hr
  | @brackets b k l args body inner l' args' cs i o hin _ _ ih1 ih2 =>
    intro raw hr
    cases i with
    | error f => simp [blockOutcome] at hr
    | ok ri =>
      obtain ⟨raw', rfl, rfl⟩ := before_ok hr
      rw [List.nil_append, marksT_append, marksT_maths, marksT_paragraphs, ih1 ri rfl, ih2 raw' rfl, marks_inside hin, marks2_cons, marks2_open,
        marks2_append, marks2_cons (.mk l' _), marks2_close]
      rfl
  | unclosed => intro raw hr; cases hr
  | unexpected => intro raw hr; cases hr
  | @scope b l inner sv cs i o _ _ ih1 ih2 =>
    intro raw hr
    cases i with
    | error f => simp [scopeOutcome] at hr
    | ok ri =>
      obtain ⟨raw', rfl, rfl⟩ := before_ok hr
      rw [marksT_append, ih2 raw' rfl, marks2_cons]
      rfl
  | @command b l label cs o items hl _ _ ih1 ih2 =>
    intro raw hr
    unfold commandOutcome at hr
    cases ha : argOutcome items with
    | error f => simp [ha] at hr
    | ok as =>
      simp only [ha] at hr
      obtain ⟨raw', rfl, rfl⟩ := before_ok hr
      rw [marksT_append, ih2 raw' rfl, marks2_cons]
      simp only [marksT, marks2, atoms, Ast2.atoms, ChunkVariant.atoms, Ast2.ChunkVariant.atoms, Command.atom, Ast2.Command.atom, marks, List.append_nil,
        List.filterMap_cons, List.filterMap_nil, markOf, kinds_args ha]
  | @environment b l label body pb pe cs i o items _ _ _ ih1 ih3 ih2 =>
    intro raw hr
    unfold environmentOutcome at hr
    cases ha : argOutcome items with
    | error f => simp [ha] at hr
    | ok as =>
      cases i with
      | error f => simp [ha] at hr
      | ok ri =>
        simp only [ha] at hr
        obtain ⟨raw', rfl, rfl⟩ := before_ok hr
        rw [marksT_append, ih2 raw' rfl, marks2_cons]
        rfl

/-- Going there and back keeps the marks. -/
theorem marks_back {ds cs ds'} (h : mathsFromChunks ds = .ok cs) (hu : Unfolds cs ds') : marks2 ds' = marks2 ds := by
  obtain ⟨raw, h1, rfl⟩ := (C55_ok _ _).1 h
  unfold marks2
  rw [atoms_unfolds hu]
  show marksT _ = marks2 _
  rw [marksT_paragraphs]
  exact yields_marks h1 raw rfl

theorem isBody_marks (cs : List Ast2.Chunk) : (∀ c ∈ cs, isBody c = false) ↔ Mark.body ∉ marks2 cs := by
  rw [isBody_atoms]
  constructor
  · intro h hm
    obtain ⟨a, ha, he⟩ := List.mem_filterMap.1 hm
    cases a with
    | environment label A C pb pe =>
      simp only [markOf] at he
      split at he
      · rename_i hl; subst hl; exact h A C pb pe ha
      · cases he
    | command label args => simp only [markOf] at he; split at he <;> cases he
    | _ => cases he
  · intro h A C pb pe hm
    exact h (List.mem_filterMap.2 ⟨_, hm, by simp [markOf]⟩)

/-- No class is named. -/
def Mark.noClass : Mark → Prop
  | .cls ks => ScopeVariant.curly ∉ ks
  | .body => True

theorem classNames_kinds : ∀ args : List (Str × Ast2.Scope),
    (classNames args).length = ((Ast2.argAtoms args).map argKind).count .curly
  | [] => rfl
  | (p, .mk inner sv) :: r => by
    have := classNames_kinds r
    cases sv <;> simp [classNames, Ast2.argAtoms, argKind, Ast2.Scope.variant, this]

theorem classes_marks (cs : List Ast2.Chunk) : classNames (classArgs cs) = [] ↔ ∀ m ∈ marks2 cs, m.noClass := by
  induction cs with
  | nil => simp [classArgs, classNames, marks2, Ast2.atoms, marks]
  | cons c cs ih =>
    rw [marks2_cons]
    simp only [List.mem_append]
    obtain ⟨l, v⟩ := c
    cases v with
    | text t => rw [marks2_text]; simpa [classArgs] using ih
    | scope s => simpa [classArgs, marks2, Ast2.atoms, Ast2.ChunkVariant.atoms, marks, markOf] using ih
    | environment e =>
      obtain ⟨label, args, content, pb, pe⟩ := e
      simp only [classArgs, ih]
      simp only [marks2, Ast2.atoms, Ast2.ChunkVariant.atoms, Ast2.Environment.atom, marks, List.append_nil, List.filterMap_cons, List.filterMap_nil, markOf]
      split
      · rename_i he
        split at he
        · cases he
        · simp
      · rename_i he
        split at he
        · cases he; simp [Mark.noClass]
        · cases he
    | command c =>
      obtain ⟨label, args⟩ := c
      by_cases hl : label = chars!"documentclass"
      · subst hl
        simp only [classArgs, if_true, classNames_append, List.append_eq_nil_iff, ih]
        have h1 : marks2 [.mk l (.command (.mk chars!"documentclass" args))] = [.cls ((Ast2.argAtoms args).map argKind)] := by
          simp [marks2, Ast2.atoms, Ast2.ChunkVariant.atoms, Ast2.Command.atom, marks, markOf]
        have h2 : classNames args = [] ↔ ScopeVariant.curly ∉ (Ast2.argAtoms args).map argKind := by
          rw [← List.length_eq_zero_iff, classNames_kinds, List.count_eq_zero]
        rw [h1, h2]
        constructor
        · rintro ⟨a, b⟩ m (hm | hm)
          · simp only [List.mem_singleton] at hm; subst hm; exact a
          · exact b m hm
        · intro h
          exact ⟨h (.cls _) (.inl (.head _)), fun m hm => h m (.inr hm)⟩
      · have h1 : marks2 [.mk l (.command (.mk label args))] = [] := by
          simp [marks2, Ast2.atoms, Ast2.ChunkVariant.atoms, Ast2.Command.atom, marks, markOf, hl]
        rw [h1]
        simpa [classArgs, hl] using ih

theorem classesOk_marks (cs : List Ast2.Chunk) :
    ClassesOk cs ↔ ∀ A ks B, marks2 cs = A ++ .cls ks :: B → (∀ m ∈ A, m.noClass) ∧ ks.count .curly ≤ 1 := by
  constructor
  · intro h A ks B he
    unfold marks2 marks at he
    obtain ⟨X, Y, hX, rfl, hY⟩ := List.filterMap_eq_append_iff.1 he
    obtain ⟨Z, a, W, rfl, hZ, ha, hW⟩ := List.filterMap_eq_cons_iff.1 hY
    cases a with
    | environment label A C pb pe => simp only [markOf] at ha; split at ha <;> cases ha
    | char c => cases ha
    | scope v A => cases ha
    | command label args =>
      simp only [markOf] at ha
      split at ha
      · rename_i hl
        subst hl
        cases ha
        rw [← List.append_assoc] at hX
        obtain ⟨d₁, l', v, d₂, rfl, h1, h2, _, _⟩ := Ast2.split_node (atoms_command_node _ _) hX
        obtain ⟨args', rfl, h3⟩ := Ast2.command_of_atom h2
        obtain ⟨h4, h5⟩ := h _ _ _ _ rfl
        rw [classNames_kinds, h3] at h5
        refine ⟨?_, h5⟩
        have h6 := (classes_marks d₁).1 h4
        unfold marks2 at h6
        rw [h1, marks_append] at h6
        intro m hm
        exact h6 m (List.mem_append_left _ hm)
      · cases ha
  · rintro h a l args b rfl
    rw [marks2_append, marks2_cons] at h
    have h1 : marks2 [.mk l (.command (.mk chars!"documentclass" args))] = [.cls ((Ast2.argAtoms args).map argKind)] := by
      simp [marks2, Ast2.atoms, Ast2.ChunkVariant.atoms, Ast2.Command.atom, marks, markOf]
    rw [h1] at h
    obtain ⟨h2, h3⟩ := h _ _ _ rfl
    exact ⟨(classes_marks a).2 h2, by rw [classNames_kinds]; exact h3⟩

end LatexAst.Ast3
