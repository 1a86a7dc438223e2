import Verif.Proofs.Again4b
import Verif.Props.Load3
import Verif.Props.KeepsText

/-! Converting to stage 3: the class that the preamble names. -/

namespace LatexAst.Ast3
open Spec

theorem classArgs_cons (c b) : classArgs (c :: b) = classArgs [c] ++ classArgs b := classArgs_append [c] b

theorem classArgs_text (l t) : classArgs [.mk l (.text t)] = [] := rfl

theorem classArgs_textIf (l t) : classArgs (textIf2 l t) = [] := by
  unfold textIf2; split <;> rfl

theorem classArgs_open {k l args} : classArgs [.mk l (.command (.mk (openLabel k) args))] = [] := by
  cases k <;> simp [classArgs, openLabel]

theorem classArgs_close {k l args} : classArgs [.mk l (.command (.mk (closeLabel k) args))] = [] := by
  cases k <;> simp [classArgs, closeLabel]

theorem classArgs_toDollar {p lost kept p'} (h : ToDollar p lost kept p') : classArgs p.rest = classArgs kept ++ classArgs p'.rest := by
  induction h with
  | here => rfl
  | later _ _ _ ih =>
    simp only [classArgs_append, List.append_assoc]
    rw [classArgs_cons, classArgs_text, List.nil_append, ih]

theorem classArgs_formula {p lost type content p'} (h : Formula p lost type content p') :
    classArgs p.rest = classArgs content ++ classArgs p'.rest := by
  cases h with
  | inline h _ =>
    rw [classArgs_append, classArgs_textIf, List.append_nil, classArgs_toDollar h]
  | display h1 _ h2 h3 =>
    rw [classArgs_append, classArgs_append, classArgs_textIf, List.append_nil, classArgs_toDollar h1, classArgs_toDollar h2, classArgs_toDollar h3,
      List.append_assoc]
    rfl

theorem classArgs_inside {k body inner} (h : Inside k body inner) : classArgs inner = classArgs body := by
  induction h with
  | nil => rfl
  | other _ _ ih => rw [classArgs_cons, ih, ← classArgs_cons]
  | nested _ _ ih1 ih2 =>
    rw [classArgs_append, ih1, ih2, classArgs_cons, classArgs_open, List.nil_append, classArgs_append,
      classArgs_cons (.mk _ (.command (.mk (closeLabel k) _))), classArgs_close, List.nil_append]

theorem classArgs_count (k : Nat) (cs : List Ast2.Chunk) : classArgs (cs.map (countFrom k)) = classArgs cs := by
  induction cs with
  | nil => rfl
  | cons c cs ih =>
    rw [List.map_cons, classArgs_cons, ih, classArgs_cons c]
    congr 1
    obtain ⟨l, v⟩ := c
    cases v with
    | command c => obtain ⟨a, b⟩ := c; rfl
    | _ => rfl

/-- The kind of an argument, and what is printed in it. -/
def sigArg : Ast2.AtomArg → ScopeVariant × Str
  | .mk _ v A => (v, Ast2.printAtoms A)

def sigT (cs : List Chunk) : List (ScopeVariant × Str) := (atomClass (atoms cs)).map sigArg

def sigs (args : List (Str × Ast2.Scope)) : List (ScopeVariant × Str) := args.map fun x => (x.2.variant, Ast2.displayChunks x.2.chunks)

theorem sigs_append (a b) : sigs (a ++ b) = sigs a ++ sigs b := List.map_append

theorem sigs_atoms : ∀ args : List (Str × Ast2.Scope), (Ast2.argAtoms args).map sigArg = sigs args
  | [] => rfl
  | (p, .mk inner v) :: r => by
    have := sigs_atoms r
    simp only [Ast2.argAtoms, List.map_cons, this, sigs, sigArg, Ast2.Scope.variant, Ast2.Scope.atoms, Ast2.print_atoms]
    rfl

theorem sigT_append (a b) : sigT (a ++ b) = sigT a ++ sigT b := by simp [sigT, atoms_append, atomClass_append]

theorem sigT_textIf (l t) : sigT (textIf l t) = [] := by
  unfold textIf; split
  · rfl
  · simp [sigT, atoms, ChunkVariant.atoms, atomClass_chars]

theorem sigT_maths (l v k c) : sigT [.mk l (.mathsBlock (.mk v k c))] = sigT c := by
  have h : atomClass (delimAtoms v k).1 = [] ∧ atomClass (delimAtoms v k).2 = [] := by
    cases v <;> cases k <;> exact ⟨by decide +kernel, by decide +kernel⟩
  simp [sigT, atoms, ChunkVariant.atoms, MathsBlock.atoms, atomClass_append, h.1, h.2]

theorem sigT_paragraphs (cs) : sigT (paragraphs cs) = sigT cs := by simp [sigT, atoms_paragraphs]

theorem sigT_lost {p lost kept p'} (h : ToDollar p lost kept p') : sigT lost = [] := by
  induction h with
  | here => rfl
  | later _ _ _ ih => rw [sigT_append, sigT_textIf, ih]; rfl

theorem sigT_formula {p lost type content p'} (h : Formula p lost type content p') : sigT lost = [] := by
  cases h with
  | inline h _ => exact sigT_lost h
  | display h1 _ h2 h3 => rw [sigT_append, sigT_append, sigT_lost h1, sigT_lost h2, sigT_lost h3]; rfl

theorem sig_args {items : List ((Str × Ast2.Scope) × Outcome)} : ∀ {args}, argOutcome items = .ok args →
    (∀ x ∈ items, Yields 0 x.1.2.chunks x.2) → (∀ x ∈ items, KeepsText x.1.2.chunks) → (argAtoms args).map sigArg = sigs (items.map (·.1)) := by
  induction items with
  | nil => intro args h _ _; simp [argOutcome] at h; subst h; rfl
  | cons x items ih =>
    obtain ⟨⟨p, sc⟩, o⟩ := x
    intro args h hy hk
    cases o with
    | error f => simp [argOutcome] at h
    | ok raw =>
      simp only [argOutcome] at h
      cases ha : argOutcome items with
      | error f => simp [ha] at h
      | ok as =>
        simp only [ha] at h
        cases h
        have h1 := ih ha (fun x hx => hy x (.tail _ hx)) fun x hx => hk x (.tail _ hx)
        have h2 : displayChunks (paragraphs raw) = Ast2.displayChunks sc.chunks :=
          (mathsFromChunks_keeps ((C55_ok _ _).2 ⟨raw, hy _ (.head _), rfl⟩)).2 (hk _ (.head _))
        simp only [argAtoms, List.map_cons, h1, sigs, sigArg, Scope.variant, Scope.atoms, print_atoms3, h2]

theorem yields_sig {b ds o} (h : Yields b ds o) : ∀ raw, o = .ok raw → (∀ x ∈ classArgs ds, KeepsText x.2.chunks) → sigT raw = sigs (classArgs ds) := by
  induction h with
  | nil => intro raw hr _; cases hr; rfl
  | @text b l t cs o ht hy ih =>
    intro raw hr hk
    obtain ⟨raw', rfl, rfl⟩ := before_ok hr
    rw [classArgs_cons, classArgs_text, List.nil_append] at hk ⊢
    rw [sigT_append, sigT_textIf, ih raw' rfl hk]; rfl
  | @formula b l q r cs lost type content p i o hq hf hcn hy1 _ ih1 ih2 =>
    intro raw hr hk
    cases i with
    | error f => simp [blockOutcome] at hr
    | ok ri =>
      obtain ⟨raw', rfl, rfl⟩ := before_ok hr
      have h1 : classArgs cs = _ := classArgs_formula hf
      rw [classArgs_cons, classArgs_text, List.nil_append, h1] at hk ⊢
      have h3 := ih2 raw' rfl (by
        rw [classArgs_cons, classArgs_text, List.nil_append]
        exact fun x hx => hk x (List.mem_append_right _ hx))
      rw [classArgs_cons, classArgs_text, List.nil_append] at h3
      have h4 := ih1 ri rfl (by rw [classArgs_count]; exact fun x hx => hk x (List.mem_append_left _ hx))
      rw [classArgs_count] at h4
      rw [sigT_append, sigT_append, sigT_append, sigT_textIf, sigT_formula hf, sigT_maths, sigT_paragraphs, h4, h3, sigs_append]
      rfl
  | uncountable => intro raw hr; cases hr
  | unfinished => intro raw hr; cases hr
  | @brackets b k l args body inner l' args' cs i o hin _ _ ih1 ih2 =>
    intro raw hr hk
    cases i with
    | error f => simp [blockOutcome] at hr
    | ok ri =>
      obtain ⟨raw', rfl, rfl⟩ := before_ok hr
      rw [classArgs_cons, classArgs_open, List.nil_append, classArgs_append, classArgs_cons (.mk l' _), classArgs_close, List.nil_append] at hk ⊢
      rw [List.nil_append, sigT_append, sigT_maths, sigT_paragraphs, ih1 ri rfl (by rw [classArgs_inside hin]; exact fun x hx => hk x (List.mem_append_left _ hx)),
        ih2 raw' rfl fun x hx => hk x (List.mem_append_right _ hx), classArgs_inside hin, sigs_append]
  | unclosed => intro raw hr; cases hr
  | unexpected => intro raw hr; cases hr
  | @scope b l inner sv cs i o _ _ ih1 ih2 =>
    intro raw hr hk
    cases i with
    | error f => simp [scopeOutcome] at hr
    | ok ri =>
      obtain ⟨raw', rfl, rfl⟩ := before_ok hr
      rw [sigT_append, ih2 raw' rfl hk]
      rfl
  | @command b l label cs o items hl hi _ ih1 ih2 =>
    intro raw hr hk
    unfold commandOutcome at hr
    cases ha : argOutcome items with
    | error f => simp [ha] at hr
    | ok as =>
      simp only [ha] at hr
      obtain ⟨raw', rfl, rfl⟩ := before_ok hr
      rw [classArgs_cons] at hk ⊢
      rw [sigT_append, ih2 raw' rfl fun x hx => hk x (List.mem_append_right _ hx), sigs_append]
      congr 1
      simp only [sigT, atoms, ChunkVariant.atoms, Command.atom, List.append_nil, atomClass, classArgs] at hk ⊢
      by_cases hc : label = chars!"documentclass"
      · simp only [if_pos hc, List.append_nil] at hk ⊢
        exact sig_args ha hi fun x hx => hk x.1 (List.mem_append_left _ (List.mem_map_of_mem hx))
      · simp only [if_neg hc]; rfl
  | @environment b l label body pb pe cs i o items _ _ _ ih1 ih3 ih2 =>
    intro raw hr hk
    unfold environmentOutcome at hr
    cases ha : argOutcome items with
    | error f => simp [ha] at hr
    | ok as =>
      cases i with
      | error f => simp [ha] at hr
      | ok ri =>
        simp only [ha] at hr
        obtain ⟨raw', rfl, rfl⟩ := before_ok hr
        rw [sigT_append, ih2 raw' rfl hk]
        rfl

theorem sigs_names : ∀ {a b : List (Str × Ast2.Scope)}, sigs a = sigs b → classNames a = classNames b ∧ optionLists a = optionLists b
  | [], [], _ => ⟨rfl, rfl⟩
  | [], _ :: _, h => by simp [sigs] at h
  | _ :: _, [], h => by simp [sigs] at h
  | (p, .mk inner sv) :: a, (p', .mk inner' sv') :: b, h => by
    simp only [sigs, List.map_cons, List.cons.injEq, Prod.mk.injEq, Ast2.Scope.variant] at h
    obtain ⟨⟨rfl, h5⟩, h2⟩ := h
    have h6 : Ast2.displayChunks inner = Ast2.displayChunks inner' := h5
    obtain ⟨h3, h4⟩ := sigs_names (a := a) (b := b) h2
    cases sv <;> simp [classNames, optionLists, h3, h4, h6]

/-- The class that the preamble names, after converting. -/
theorem named_made {ds cs} (h : mathsFromChunks ds = .ok cs) (hk : ∀ x ∈ classArgs ds, KeepsText x.2.chunks) :
    classNames (classArgs (spelled cs)) = classNames (classArgs ds) ∧ optionLists (classArgs (spelled cs)) = optionLists (classArgs ds) := by
  obtain ⟨raw, h1, rfl⟩ := (C55_ok _ _).1 h
  apply sigs_names
  rw [← sigs_atoms, classArgs_atoms, atoms_spelled]
  show sigT _ = _
  rw [sigT_paragraphs]
  exact yields_sig h1 raw rfl hk

end LatexAst.Ast3
