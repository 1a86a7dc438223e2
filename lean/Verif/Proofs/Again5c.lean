import Verif.Proofs.Again5b

/-! What follows the document environment, going to stage 2 and back: when it panics. -/

namespace LatexAst.Ast3
open Spec

/-- Texts, also in formulas, are numbered from 1. -/
inductive Numbered : List Chunk → Prop
  | mk {cs} : (∀ c ∈ cs, c.IsText → 1 ≤ c.lineNo) → (∀ l v k content, .mk l (.mathsBlock (.mk v k content)) ∈ cs → Numbered content) → Numbered cs

theorem numbered_nil : Numbered [] := .mk (by simp) (by simp)

theorem numbered_append {a b : List Chunk} : Numbered (a ++ b) ↔ Numbered a ∧ Numbered b := by
  constructor
  · intro h
    cases h with
    | mk h1 h2 => exact ⟨.mk (fun c hc => h1 c (by simp [hc])) fun l v k c hc => h2 l v k c (by simp [hc]),
        .mk (fun c hc => h1 c (by simp [hc])) fun l v k c hc => h2 l v k c (by simp [hc])⟩
  · rintro ⟨⟨h1, h2⟩, ⟨h3, h4⟩⟩
    refine .mk ?_ ?_
    · intro c hc
      rcases List.mem_append.1 hc with hc | hc
      · exact h1 c hc
      · exact h3 c hc
    · intro l v k c hc
      rcases List.mem_append.1 hc with hc | hc
      · exact h2 l v k c hc
      · exact h4 l v k c hc

theorem numbered_cons {c : Chunk} {b : List Chunk} : Numbered (c :: b) ↔ Numbered [c] ∧ Numbered b := numbered_append (a := [c])

theorem numbered_maths {l v k content} : Numbered [.mk l (.mathsBlock (.mk v k content))] ↔ Numbered content := by
  constructor
  · intro h; cases h with | mk h1 h2 => exact h2 _ _ _ _ (.head _)
  · intro h
    refine .mk ?_ ?_
    · intro c hc ht
      rw [List.mem_singleton.1 hc] at ht
      exact absurd ht maths_not_text
    · intro l v k c hc
      rw [List.mem_singleton] at hc
      cases hc
      exact h

theorem numbered_other {c : Chunk} (h1 : ¬ c.IsText) (h2 : ∀ m, c.variant ≠ .mathsBlock m) : Numbered [c] := by
  refine .mk ?_ ?_
  · intro d hd ht
    rw [List.mem_singleton.1 hd] at ht
    exact absurd ht h1
  · intro l v k content hc
    rw [List.mem_singleton] at hc
    subst hc
    exact absurd rfl (h2 _)

theorem numbered_texts {cs : List Chunk} (h : ∀ c ∈ cs, c.IsText) (hl : ∀ c ∈ cs, 1 ≤ c.lineNo) : Numbered cs := by
  refine .mk (fun c hc _ => hl c hc) ?_
  intro l v k content hc
  exact absurd (h _ hc) maths_not_text

/-! ### what the conversion makes is numbered from 1 -/

/-- Texts are numbered from 1. -/
def TextsFrom1 (ds : List Ast2.Chunk) : Prop := ∀ l t, .mk l (.text t) ∈ ds → 1 ≤ l

theorem toDollar_from1 {p lost kept p'} (h : ToDollar p lost kept p') (h1 : 1 ≤ p.line) (h2 : TextsFrom1 p.rest) :
    1 ≤ p'.line ∧ ∀ c ∈ lost, 1 ≤ c.lineNo := by
  induction h with
  | here => exact ⟨h1, by simp⟩
  | @later l q x ms l' t rest lost kept p hx _ _ ih =>
    obtain ⟨h3, h4⟩ := ih (h2 l' t (by simp)) fun l t hm => h2 l t (by simp [hm])
    refine ⟨h3, ?_⟩
    intro c hc
    rcases List.mem_append.1 hc with hc | hc
    · unfold textIf at hc
      split at hc
      · cases hc
      · rw [List.mem_singleton.1 hc]; exact h1
    · exact h4 c hc

theorem formula_from1 {p lost type content p'} (h : Formula p lost type content p') (h1 : 1 ≤ p.line) (h2 : TextsFrom1 p.rest) :
    1 ≤ p'.line ∧ ∀ c ∈ lost, 1 ≤ c.lineNo := by
  cases h with
  | inline h _ => exact toDollar_from1 h h1 h2
  | display a _ b c =>
    obtain ⟨a1, a2⟩ := toDollar_from1 a h1 h2
    obtain ⟨b1, b2⟩ := toDollar_from1 b a1 fun l t hm => h2 l t ((toDollar_sub a).2 _ hm)
    obtain ⟨c1, c2⟩ := toDollar_from1 c b1 fun l t hm => h2 l t ((toDollar_sub a).2 _ ((toDollar_sub b).2 _ hm))
    refine ⟨c1, ?_⟩
    intro d hd
    rcases List.mem_append.1 hd with hd | hd
    · rcases List.mem_append.1 hd with hd | hd
      · exact a2 d hd
      · exact b2 d hd
    · exact c2 d hd

theorem numbered_textIf {l t} (h : 1 ≤ l) : Numbered (paragraphs (textIf l t)) :=
  numbered_texts (cut_isText (paragraphs_textIf l t).1) fun c hc => Nat.le_trans h (textIf_lines c hc)

theorem numbered_para {l t} (h : 1 ≤ l) : Numbered (paragraphs [.mk l (.text t)]) := by
  have hc := cut_isText (C32_cut l t)
  refine numbered_texts hc fun c hc => Nat.le_trans h ?_
  have h := split_total [.mk l (.text t)]
  generalize paragraphs [.mk l (.text t)] = x at h hc
  cases h with
  | text h1 h2 h3 h4 => cases h4; rw [List.append_nil] at hc; exact piecesFrom_le h3 c hc
  | other h1 _ => exact absurd rfl (h1 t)

theorem numbered_lost : ∀ {lost : List Chunk}, (∀ c ∈ lost, ∃ l t, c = .mk l (.text t) ∧ '$' ∉ t) → (∀ c ∈ lost, 1 ≤ c.lineNo) → Numbered (paragraphs lost)
  | [], _, _ => numbered_nil
  | c :: lost, h1, h2 => by
    obtain ⟨l, t, rfl, _⟩ := h1 c (.head _)
    have ih := numbered_lost (fun c hc => h1 c (.tail _ hc)) fun c hc => h2 c (.tail _ hc)
    have e : paragraphs (.mk l (.text t) :: lost) = paragraphs [.mk l (.text t)] ++ paragraphs lost := paragraphs_append [_] _
    rw [e]
    refine numbered_append.2 ⟨?_, ih⟩
    exact numbered_para (h2 _ (.head _))

theorem yields_numbered {b ds o} (h : Yields b ds o) : TextsFrom1 ds → ∀ raw, o = .ok raw → Numbered (paragraphs raw) := by
  induction h with
  | nil => intro _ raw hr; cases hr; exact numbered_nil
  | @text b l t cs o ht hy ih =>
    intro hd raw hr
    obtain ⟨raw', rfl, rfl⟩ := before_ok hr
    rw [paragraphs_append, numbered_append]
    exact ⟨numbered_textIf (hd l t (.head _)), ih (fun l t h => hd l t (.tail _ h)) raw' rfl⟩
  | @formula b l q r cs lost type content p i o hq hf hcn hy1 _ ih1 ih2 =>
    intro hd raw hr
    cases i with
    | error f => simp [blockOutcome] at hr
    | ok ri =>
      obtain ⟨raw', rfl, rfl⟩ := before_ok hr
      obtain ⟨kept, rfl, k1, k2, k3, k4, k5, k6⟩ := formula_parts hf (by simp)
      have hl := hd l _ (.head _)
      have hcs : TextsFrom1 cs := fun l t h => hd l t (.tail _ h)
      obtain ⟨f1, f2⟩ := formula_from1 hf (by simp only; omega) hcs
      rw [List.append_assoc, List.append_assoc, ← List.append_assoc, paragraphs_append, paragraphs_node (by intro t h; cases h), numbered_append,
        numbered_cons, numbered_maths, paragraphs_append, numbered_append]
      refine ⟨⟨numbered_textIf hl, numbered_lost k5 f2⟩, ih1 ?_ ri rfl, ih2 ?_ raw' rfl⟩
      · intro l t hm
        rw [List.map_append] at hm
        rcases List.mem_append.1 hm with hm | hm
        · exact absurd rfl (variants_notText (variants_count _ _) k1 _ hm t)
        · unfold textIf2 at hm
          split at hm
          · cases hm
          · simp only [List.map_cons, List.map_nil, countFrom, List.mem_singleton, Ast2.Chunk.mk.injEq] at hm
            omega
      · intro l t hm
        rcases List.mem_cons.1 hm with hm | hm
        · cases hm; omega
        · exact hcs l t (k3 _ hm)
  | uncountable => intro _ raw hr; cases hr
  | unfinished => intro _ raw hr; cases hr
  | @brackets b k l args body inner l' args' cs i o hin _ _ ih1 ih2 =>
    intro hd raw hr
    cases i with
    | error f => simp [blockOutcome] at hr
    | ok ri =>
      obtain ⟨raw', rfl, rfl⟩ := before_ok hr
      rw [List.nil_append, paragraphs_node (by intro t h; cases h), numbered_cons, numbered_maths]
      exact ⟨ih1 (fun l t h => hd l t (by simp [(inside_none hin).2 _ h])) ri rfl, ih2 (fun l t h => hd l t (by simp [h])) raw' rfl⟩
  | unclosed => intro _ raw hr; cases hr
  | unexpected => intro _ raw hr; cases hr
  | @scope b l inner sv cs i o _ _ ih1 ih2 =>
    intro hd raw hr
    cases i with
    | error f => simp [scopeOutcome] at hr
    | ok ri =>
      obtain ⟨raw', rfl, rfl⟩ := before_ok hr
      rw [paragraphs_node (by intro t h; cases h), numbered_cons]
      exact ⟨numbered_other (by rintro (⟨t, h⟩ | ⟨t, h⟩) <;> cases h) (by intro m h; cases h), ih2 (fun l t h => hd l t (.tail _ h)) raw' rfl⟩
  | @command b l label cs o items hl _ _ ih1 ih2 =>
    intro hd raw hr
    unfold commandOutcome at hr
    cases ha : argOutcome items with
    | error f => simp [ha] at hr
    | ok as =>
      simp only [ha] at hr
      obtain ⟨raw', rfl, rfl⟩ := before_ok hr
      rw [paragraphs_node (by intro t h; cases h), numbered_cons]
      exact ⟨numbered_other (by rintro (⟨t, h⟩ | ⟨t, h⟩) <;> cases h) (by intro m h; cases h), ih2 (fun l t h => hd l t (.tail _ h)) raw' rfl⟩
  | @environment b l label body pb pe cs i o items _ _ _ ih1 ih3 ih2 =>
    intro hd raw hr
    unfold environmentOutcome at hr
    cases ha : argOutcome items with
    | error f => simp [ha] at hr
    | ok as =>
      cases i with
      | error f => simp [ha] at hr
      | ok ri =>
        simp only [ha] at hr
        obtain ⟨raw', rfl, rfl⟩ := before_ok hr
        rw [paragraphs_node (by intro t h; cases h), numbered_cons]
        exact ⟨numbered_other (by rintro (⟨t, h⟩ | ⟨t, h⟩) <;> cases h) (by intro m h; cases h), ih2 (fun l t h => hd l t (.tail _ h)) raw' rfl⟩

/-- What unfolds is numbered from 1. -/
theorem unfolds_from1 {cs ds} (h : Unfolds cs ds) : Numbered cs → TextsFrom1 ds := by
  induction h with
  | nil => intro _ l t h; cases h
  | text _ ih =>
    intro hn l t h
    obtain ⟨h1, h2⟩ := numbered_cons.1 hn
    rcases List.mem_cons.1 h with h | h
    · cases h; cases h1 with | mk h1 _ => exact h1 _ (.head _) (.inl ⟨_, rfl⟩)
    · exact ih h2 l t h
  | «break» _ ih =>
    intro hn l t h
    obtain ⟨h1, h2⟩ := numbered_cons.1 hn
    rcases List.mem_cons.1 h with h | h
    · cases h; cases h1 with | mk h1 _ => exact h1 _ (.head _) (.inr ⟨_, rfl⟩)
    · exact ih h2 l t h
  | scope _ _ _ ih =>
    intro hn l t h
    rcases List.mem_cons.1 h with h | h
    · cases h
    · exact ih (numbered_cons.1 hn).2 l t h
  | command _ _ _ ih =>
    intro hn l t h
    rcases List.mem_cons.1 h with h | h
    · cases h
    · exact ih (numbered_cons.1 hn).2 l t h
  | environment _ _ _ _ _ ih =>
    intro hn l t h
    rcases List.mem_cons.1 h with h | h
    · cases h
    · exact ih (numbered_cons.1 hn).2 l t h
  | @maths l0 v k content content' block cs ds hl _ hb _ ih1 ih2 =>
    intro hn l t h
    obtain ⟨h1, h2⟩ := numbered_cons.1 hn
    have hc := ih1 (numbered_maths.1 h1)
    rcases List.mem_append.1 h with h | h
    · obtain ⟨⟨l', v'⟩, hm, he⟩ := List.mem_map.1 h
      simp only [Ast2.Chunk.shift, Ast2.Chunk.mk.injEq] at he
      obtain ⟨rfl, rfl⟩ := he
      have open1 : ∀ {δ A B}, TextsFrom1 A → OpensWith δ A B → TextsFrom1 B := by
        intro δ A B hA ho l t hm
        cases ho with
        | text =>
          rcases List.mem_cons.1 hm with hm | hm
          · cases hm; exact hA _ _ (.head _)
          · exact hA l t (.tail _ hm)
        | other =>
          rcases List.mem_cons.1 hm with hm | hm
          · cases hm; exact Nat.le_refl _
          · exact hA l t hm
      have close1 : ∀ {δ n A B}, 1 ≤ n → TextsFrom1 A → ClosesWith δ n A B → TextsFrom1 B := by
        intro δ n A B hn hA ho l t hm
        cases ho with
        | text =>
          rcases List.mem_append.1 hm with hm | hm
          · exact hA l t (by simp [hm])
          · rw [List.mem_singleton] at hm; cases hm; exact hA _ _ (List.mem_append_right _ (.head _))
        | other =>
          rcases List.mem_append.1 hm with hm | hm
          · exact hA l t hm
          · rw [List.mem_singleton] at hm; cases hm; exact hn
      have : 1 ≤ l' := by
        cases hb with
        | round =>
          simp only [List.mem_cons, List.mem_append, List.not_mem_nil, or_false, Ast2.Chunk.mk.injEq, reduceCtorEq, and_false, false_or] at hm
          exact hc _ _ hm
        | square =>
          simp only [List.mem_cons, List.mem_append, List.not_mem_nil, or_false, Ast2.Chunk.mk.injEq, reduceCtorEq, and_false, false_or] at hm
          exact hc _ _ hm
        | emptyDollar => rw [List.mem_singleton] at hm; cases hm; exact Nat.le_refl _
        | emptyDollars => rw [List.mem_singleton] at hm; cases hm; exact Nat.le_refl _
        | dollar _ a b => exact close1 (Nat.le_add_right _ _) (open1 hc a) b _ _ hm
        | dollars _ a b => exact close1 (Nat.le_add_right _ _) (open1 hc a) b _ _ hm
      omega
    · exact ih2 h2 l t h

end LatexAst.Ast3
