import Verif.Spec.KeepsText
import Verif.Proofs.MathsRule

/-!
# Which maths stage 3 prints as it was written
-/

namespace LatexAst.Ast3

theorem append_eq_of_le {α} {a b a' b' : List α} (h : a ++ b = a' ++ b') (ha : a.length ≤ a'.length)
    (hb : b.length ≤ b'.length) : a = a' ∧ b = b' := by
  have hl := congrArg List.length h
  simp only [List.length_append] at hl
  exact List.append_inj h (by omega)

/-! ### lengths -/

theorem toDollar_len {p lost kept p'} (h : ToDollar p lost kept p') :
    p.pending.length + p.text.length + (Ast2.displayChunks p.rest).length =
      (displayChunks lost).length + (Ast2.displayChunks kept).length + p'.pending.length + 1 + p'.text.length +
        (Ast2.displayChunks p'.rest).length := by
  induction h with
  | here => simp [displayChunks, Ast2.displayChunks]; omega
  | later _ _ _ ih =>
    simp [displayChunks, Ast2.displayChunks, Ast2.Chunk.display, Ast2.ChunkVariant.display, display_textIf] at ih ⊢
    omega

theorem textIf_nil {l t} (h : textIf l t = []) : t = [] := by
  unfold textIf at h; split at h
  · assumption
  · cases h

theorem toDollar_disp {p lost kept p'} (h : ToDollar p lost kept p') (hl : lost = []) :
    p.pending ++ (p.text ++ Ast2.displayChunks p.rest) =
      Ast2.displayChunks kept ++ (p'.pending ++ '$' :: (p'.text ++ Ast2.displayChunks p'.rest)) := by
  induction h with
  | here => simp [Ast2.displayChunks]
  | later _ _ _ ih =>
    obtain ⟨h1, h2⟩ := List.append_eq_nil_iff.1 hl
    have h1 := textIf_nil h1
    have h3 := ih h2
    obtain ⟨h1, h4⟩ := List.append_eq_nil_iff.1 h1
    subst h1 h4
    simp [Ast2.displayChunks, Ast2.Chunk.display, Ast2.ChunkVariant.display] at h3 ⊢
    exact h3

/-- starts with something that is not a dollar sign, or is empty -/
def NoDollarFirst (s : Str) : Prop := s = [] ∨ ∃ h r, s = h :: r ∧ h ≠ '$'

theorem NoDollarFirst.append {a b} (ha : NoDollarFirst a) (hb : NoDollarFirst b) : NoDollarFirst (a ++ b) := by
  rcases ha with rfl | ⟨h, r, rfl, hh⟩
  · exact hb
  · exact .inr ⟨h, _, rfl, hh⟩

theorem noDollarFirst_of {s : Str} (h : '$' ∉ s) : NoDollarFirst s := by
  cases s with
  | nil => exact .inl rfl
  | cons a s => exact .inr ⟨a, s, rfl, by rintro rfl; simp at h⟩

theorem toDollar_lost {p lost kept p'} (h : ToDollar p lost kept p') (hp : '$' ∉ p.pending) :
    '$' ∉ p'.pending ∧ NoDollarFirst (displayChunks lost) ∧ (displayChunks lost = [] → lost = []) := by
  induction h with
  | here hx => exact ⟨by simp_all, .inl rfl, fun _ => rfl⟩
  | @later l q x ms l' t rest lost kept p hx _ _ ih =>
    obtain ⟨h1, h2, h3⟩ := ih (by simp)
    refine ⟨h1, ?_, ?_⟩
    · rw [displayChunks_append, display_textIf]
      exact .append (noDollarFirst_of (by simp_all)) h2
    · rw [displayChunks_append, display_textIf]
      intro h
      obtain ⟨h4, h5⟩ := List.append_eq_nil_iff.1 h
      rw [h3 h5, h4]
      simp [textIf]

theorem toDollar_kept {p lost kept p'} (h : ToDollar p lost kept p') : ∀ c ∈ kept, NotText c := by
  induction h with
  | here => simp
  | later _ hm _ ih =>
    intro c hc
    rcases List.mem_append.1 hc with hc | hc
    · exact hm c hc
    · exact ih c hc

/-- the number of dollar signs on either side -/
def dollarLen : MathsType → Nat
  | .inline => 1
  | .outline => 2

theorem delims_len (k : MathsType) : (delimiters .dollars k).1.length = dollarLen k ∧ (delimiters .dollars k).2.length = dollarLen k := by
  cases k <;> exact ⟨rfl, rfl⟩

theorem delims_bracket (k : MathsType) : (delimiters .brackets k).1 = '\\' :: openLabel k ∧
    (delimiters .brackets k).2 = '\\' :: closeLabel k := by
  cases k <;> exact ⟨rfl, rfl⟩

theorem formula_len {p lost type content p'} (h : Formula p lost type content p') (hp : p.pending = []) :
    1 + p.text.length + (Ast2.displayChunks p.rest).length =
      (displayChunks lost).length + dollarLen type + ((Ast2.displayChunks content).length + (dollarLen type +
        (p'.text.length + (Ast2.displayChunks p'.rest).length))) := by
  cases h with
  | inline h _ =>
    have := toDollar_len h
    simp [hp, dollarLen, display_textIf2] at this ⊢
    omega
  | display h1 h2 h3 h4 =>
    have g1 := toDollar_len h1
    have g2 := toDollar_len h3
    have g3 := toDollar_len h4
    simp [hp, h2, dollarLen, display_textIf2, Ast2.displayChunks] at g1 g2 g3 ⊢
    omega

theorem formula_lost {p lost type content p'} (h : Formula p lost type content p') (hp : p.pending = []) :
    NoDollarFirst (displayChunks lost) ∧ (displayChunks lost = [] → lost = []) := by
  cases h with
  | inline h _ => exact (toDollar_lost h (by simp [hp])).2
  | display h1 h2 h3 h4 =>
    have g1 := toDollar_lost h1 (by simp [hp])
    have g2 := toDollar_lost h3 (by simp [h2])
    have g3 := toDollar_lost h4 g2.1
    refine ⟨by simpa using g1.2.1.append (g2.2.1.append g3.2.1), ?_⟩
    intro h
    simp only [displayChunks_append, List.append_eq_nil_iff] at h
    simp [g1.2.2 h.1.1, g2.2.2 h.1.2, g3.2.2 h.2]

theorem display_countFrom (l : Nat) (cs : List Ast2.Chunk) :
    Ast2.displayChunks (cs.map (countFrom l)) = Ast2.displayChunks cs := by
  induction cs with
  | nil => rfl
  | cons c cs ih =>
    obtain ⟨l', v⟩ := c
    simp [Ast2.displayChunks, countFrom, Ast2.Chunk.display, ih]

theorem inside_le {k body inner} (h : Inside k body inner) :
    (Ast2.displayChunks inner).length ≤ (Ast2.displayChunks body).length ∧
    ((Ast2.displayChunks inner).length = (Ast2.displayChunks body).length → inner = body ∧ ∀ c ∈ body, NotOfKind k c) := by
  induction h with
  | nil => simp
  | other hn _ ih =>
    simp only [Ast2.displayChunks, List.length_append]
    refine ⟨by omega, fun h => ?_⟩
    obtain ⟨rfl, h2⟩ := ih.2 (by omega)
    refine ⟨rfl, fun c hc => ?_⟩
    rcases List.mem_cons.1 hc with rfl | hc
    · exact hn
    · exact h2 c hc
  | nested _ _ ih1 ih2 =>
    simp only [Ast2.displayChunks, Ast2.displayChunks_append, Ast2.Chunk.display, Ast2.ChunkVariant.display,
      Ast2.Command.display, List.length_append, List.length_cons]
    refine ⟨by omega, fun h => ?_⟩
    omega

theorem args_le {items : List ((Str × Ast2.Scope) × Outcome)} {args} (h : argOutcome items = .ok args)
    (ih : ∀ x ∈ items, ∀ out, x.2 = .ok out → (displayChunks out).length ≤ (Ast2.displayChunks x.1.2.chunks).length) :
    (displayArgs args).length ≤ (Ast2.displayArgs (items.map (·.1))).length := by
  induction items generalizing args with
  | nil => simp [argOutcome] at h; subst h; simp [displayArgs]
  | cons x r ihr =>
    obtain ⟨⟨p, ⟨inner, sv⟩⟩, o⟩ := x
    cases o with
    | error f => simp [argOutcome] at h
    | ok out =>
      cases ha : argOutcome r with
      | error f => simp [argOutcome, ha] at h
      | ok args' =>
        simp [argOutcome, ha] at h
        subst h
        have h1 := ihr ha fun y hy => ih y (.tail _ hy)
        have h2 := ih _ (.head _) out rfl
        simp [displayArgs, Ast2.displayArgs, Scope.display, Ast2.Scope.display, display_paragraphs, Ast2.Scope.variant,
          Ast2.Scope.chunks] at h1 h2 ⊢
        omega

theorem args_keep {items : List ((Str × Ast2.Scope) × Outcome)} {args} (h : argOutcome items = .ok args)
    (le : ∀ x ∈ items, ∀ out, x.2 = .ok out → (displayChunks out).length ≤ (Ast2.displayChunks x.1.2.chunks).length)
    (he : displayArgs args = Ast2.displayArgs (items.map (·.1))) :
    ∀ x ∈ items, ∃ out, x.2 = .ok out ∧ displayChunks out = Ast2.displayChunks x.1.2.chunks := by
  induction items generalizing args with
  | nil => simp
  | cons x r ihr =>
    obtain ⟨⟨p, ⟨inner, sv⟩⟩, o⟩ := x
    cases o with
    | error f => simp [argOutcome] at h
    | ok out =>
      cases ha : argOutcome r with
      | error f => simp [argOutcome, ha] at h
      | ok args' =>
        simp [argOutcome, ha] at h
        subst h
        have h1 := args_le ha fun y hy => le y (.tail _ hy)
        have h2 := le _ (.head _) out rfl
        simp only [displayArgs, List.map_cons, Ast2.displayArgs, Scope.display, Ast2.Scope.display, display_paragraphs, Ast2.Scope.variant,
          Ast2.Scope.chunks, List.append_cancel_left_eq, List.cons_append, List.cons.injEq, true_and, List.append_assoc,
          List.nil_append] at h1 h2 he
        have h3 := append_eq_of_le he h2 (by simp; exact h1)
        have h4 := List.cons.inj h3.2
        intro y hy
        rcases List.mem_cons.1 hy with rfl | hy
        · exact ⟨out, rfl, h3.1⟩
        · exact ihr ha (fun y hy => le y (.tail _ hy)) h4.2 y hy

/-- Converting never makes the text longer. -/
theorem Yields.le {b cs o} (h : Yields b cs o) : ∀ out, o = .ok out →
    (displayChunks out).length ≤ (Ast2.displayChunks cs).length := by
  induction h with
  | nil => rintro _ ⟨⟩; simp [displayChunks]
  | @text b l t cs o _ _ ih =>
    cases o with
    | error f => intro out h; simp [before] at h
    | ok o =>
      intro out h
      simp only [before, Except.ok.injEq] at h
      subst h
      have := ih _ rfl
      simp [display_textIf, Ast2.displayChunks, Ast2.Chunk.display, Ast2.ChunkVariant.display]; omega
  | @formula b l q r cs lost type content p i o hq hf _ _ _ ih1 ih2 =>
    cases i with
    | error f => intro out h; simp [blockOutcome] at h
    | ok i =>
      cases o with
      | error f => intro out h; simp [blockOutcome, before] at h
      | ok o =>
        intro out h
        simp only [blockOutcome, before, Except.ok.injEq] at h
        subst h
        have h1 := ih1 _ rfl
        have h2 := ih2 _ rfl
        have h3 := formula_len hf rfl
        have h4 := delims_len type
        rw [display_countFrom] at h1
        simp [display_textIf, displayChunks, Chunk.display, ChunkVariant.display, MathsBlock.display, display_paragraphs,
          Ast2.displayChunks, Ast2.Chunk.display, Ast2.ChunkVariant.display, h4] at h1 h2 h3 ⊢
        omega
  | uncountable => intro out h; cases h
  | unfinished => intro out h; cases h
  | @brackets b k l args body inner l' args' cs i o hin _ _ ih1 ih2 =>
    cases i with
    | error f => intro out h; simp [blockOutcome] at h
    | ok i =>
      cases o with
      | error f => intro out h; simp [blockOutcome, before] at h
      | ok o =>
        intro out h
        simp only [blockOutcome, before, Except.ok.injEq] at h
        subst h
        have h1 := ih1 _ rfl
        have h2 := ih2 _ rfl
        have h3 := (inside_le hin).1
        have h4 := delims_bracket k
        simp [displayChunks, Chunk.display, ChunkVariant.display, MathsBlock.display, display_paragraphs,
          Ast2.displayChunks, Ast2.Chunk.display, Ast2.ChunkVariant.display, Ast2.Command.display, h4] at h1 h2 h3 ⊢
        omega
  | unclosed => intro out h; cases h
  | unexpected => intro out h; cases h
  | @scope b l inner sv cs i o _ _ ih1 ih2 =>
    cases i with
    | error f => intro out h; simp [scopeOutcome] at h
    | ok i =>
      cases o with
      | error f => intro out h; simp [scopeOutcome, before] at h
      | ok o =>
        intro out h
        simp only [scopeOutcome, before, Except.ok.injEq] at h
        subst h
        have h1 := ih1 _ rfl
        have h2 := ih2 _ rfl
        simp [displayChunks, Chunk.display, ChunkVariant.display, Scope.display, display_paragraphs,
          Ast2.displayChunks, Ast2.Chunk.display, Ast2.ChunkVariant.display, Ast2.Scope.display] at h1 h2 ⊢
        omega
  | @command b l label cs o items _ _ _ ih1 ih2 =>
    intro out h
    cases ha : argOutcome items with
    | error f => simp [commandOutcome, ha] at h
    | ok args =>
      cases o with
      | error f => simp [commandOutcome, ha, before] at h
      | ok o =>
        simp only [commandOutcome, ha, before, Except.ok.injEq] at h
        subst h
        have h1 := args_le ha ih1
        have h2 := ih2 _ rfl
        simp [displayChunks, Chunk.display, ChunkVariant.display, Command.display,
          Ast2.displayChunks, Ast2.Chunk.display, Ast2.ChunkVariant.display, Ast2.Command.display] at h1 h2 ⊢
        omega
  | @environment b l label body pb pe cs i o items _ _ _ ih1 ih2 ih3 =>
    intro out h
    cases ha : argOutcome items with
    | error f => simp [environmentOutcome, ha] at h
    | ok args =>
      cases i with
      | error f => simp [environmentOutcome, ha] at h
      | ok i =>
        cases o with
        | error f => simp [environmentOutcome, ha, before] at h
        | ok o =>
          simp only [environmentOutcome, ha, before, Except.ok.injEq] at h
          subst h
          have h1 := args_le ha ih1
          have h2 := ih2 _ rfl
          have h3 := ih3 _ rfl
          simp [displayChunks, Chunk.display, ChunkVariant.display, Environment.display, display_paragraphs,
            Ast2.displayChunks, Ast2.Chunk.display, Ast2.ChunkVariant.display, Ast2.Environment.display] at h1 h2 h3 ⊢
          omega

/-! ### where chunks start -/

/-- At position `n` there is a character that is not a dollar sign. -/
def OtherAt (s : Str) (n : Nat) : Prop := ∃ u h v, s = u ++ h :: v ∧ u.length = n ∧ h ≠ '$'

theorem OtherAt.left {s n} (h : OtherAt s n) (a : Str) : OtherAt (a ++ s) (a.length + n) := by
  obtain ⟨u, x, v, rfl, rfl, hx⟩ := h
  exact ⟨a ++ u, x, v, by simp, by simp, hx⟩

theorem OtherAt.right {s n} (h : OtherAt s n) (a : Str) : OtherAt (s ++ a) n := by
  obtain ⟨u, x, v, rfl, rfl, hx⟩ := h
  exact ⟨u, x, v ++ a, by simp, rfl, hx⟩

theorem otherAt_zero (s : Str) : OtherAt ('\\' :: s) 0 := ⟨[], _, s, rfl, rfl, by decide⟩

/-- No text directly in these chunks has a dollar sign. -/
def PlainTexts (cs : List Ast2.Chunk) : Prop := ∀ l t, .mk l (.text t) ∈ cs → '$' ∉ t

theorem PlainTexts.tail {c cs} (h : PlainTexts (c :: cs)) : PlainTexts cs := fun l t hm => h l t (.tail _ hm)

/-- where a list is split by an element -/
theorem split_at {α} {xs ys a r : List α} {m c : α} (h : xs ++ m :: ys = a ++ c :: r) :
    (∃ e, xs = a ++ c :: e) ∨ (a = xs ∧ c = m) ∨ (∃ e, a = xs ++ m :: e ∧ ys = e ++ c :: r) := by
  rcases List.append_eq_append_iff.1 h with ⟨e, h1, h2⟩ | ⟨e, h1, h2⟩
  · cases e with
    | nil =>
      simp at h2 h1
      exact .inr (.inl ⟨h1, h2.1.symm⟩)
    | cons x e =>
      simp at h2
      obtain ⟨rfl, h2⟩ := h2
      exact .inr (.inr ⟨e, h1, h2⟩)
  · cases e with
    | nil =>
      simp at h2 h1
      exact .inr (.inl ⟨h1.symm, h2.1⟩)
    | cons x e =>
      simp at h2
      obtain ⟨rfl, h2⟩ := h2
      exact .inl ⟨e, h1⟩

/-- If nothing gets lost and there are no dollar formulas, every chunk that is not a text is printed where it was. -/
theorem Yields.other {b cs o} (h : Yields b cs o) : ∀ out, o = .ok out →
    (displayChunks out).length = (Ast2.displayChunks cs).length → PlainTexts cs →
    ∀ a c r, cs = a ++ c :: r → NotText c → OtherAt (displayChunks out) (Ast2.displayChunks a).length := by
  induction h with
  | nil => intro out _ _ _ a c r h; simp at h
  | @text b l t cs o _ hy ih =>
    cases o with
    | error f => intro out h; simp [before] at h
    | ok o =>
      intro out h hl hp a c r hs hc
      simp only [before, Except.ok.injEq] at h
      subst h
      simp only [displayChunks_append, display_textIf, Ast2.displayChunks, Ast2.Chunk.display, Ast2.ChunkVariant.display,
        List.length_append] at hl ⊢
      cases a with
      | nil =>
        simp at hs
        exact absurd (congrArg Ast2.Chunk.variant hs.1.symm) (hc t)
      | cons d a =>
        simp at hs
        obtain ⟨rfl, hs⟩ := hs
        have := ih o rfl (by omega) hp.tail a c r hs hc
        simpa [Ast2.displayChunks, Ast2.Chunk.display, Ast2.ChunkVariant.display] using this.left t
  | formula =>
    intro out _ _ hp
    exact absurd (hp _ _ (.head _)) (by simp)
  | uncountable => intro out h; cases h
  | unfinished => intro out h; cases h
  | @brackets b k l args body inner l' args' cs i o hin hy1 hy2 ih1 ih2 =>
    cases i with
    | error f => intro out h; simp [blockOutcome] at h
    | ok i =>
      cases o with
      | error f => intro out h; simp [blockOutcome, before] at h
      | ok o =>
        intro out h hl hp a c r hs hc
        simp only [blockOutcome, before, Except.ok.injEq] at h
        subst h
        have h1 := hy1.le _ rfl
        have h2 := hy2.le _ rfl
        have h3 := inside_le hin
        have h4 := delims_bracket k
        simp only [displayChunks, displayChunks_append, Chunk.display, ChunkVariant.display, MathsBlock.display,
          display_paragraphs, List.append_nil, List.nil_append, h4.1, h4.2,
          Ast2.displayChunks, Ast2.displayChunks_append, Ast2.Chunk.display, Ast2.ChunkVariant.display, Ast2.Command.display,
          List.length_append, List.length_cons] at hl ⊢
        obtain ⟨rfl, _⟩ := h3.2 (by omega)
        cases a with
        | nil => exact ⟨[], '\\', _, rfl, rfl, by decide⟩
        | cons d a =>
          simp only [List.cons_append, List.cons.injEq] at hs
          obtain ⟨rfl, hs⟩ := hs
          have hargs : Ast2.displayArgs args = [] := List.length_eq_zero_iff.1 (by omega)
          have hargs' : Ast2.displayArgs args' = [] := List.length_eq_zero_iff.1 (by omega)
          simp only [Ast2.displayChunks, Ast2.Chunk.display, Ast2.ChunkVariant.display, Ast2.Command.display, hargs,
            List.append_nil, List.length_append]
          rcases split_at hs with ⟨e, he⟩ | ⟨rfl, rfl⟩ | ⟨e, rfl, he⟩
          · have := ih1 i rfl (by omega) (fun l t hm => hp l t (by simp [hm])) a c e he hc
            have := (this.left ('\\' :: openLabel k)).right ('\\' :: closeLabel k ++ displayChunks o)
            simpa using this
          · have := (otherAt_zero (closeLabel k ++ displayChunks o)).left ('\\' :: (openLabel k ++ displayChunks i))
            have e1 : ('\\' :: (openLabel k ++ displayChunks i)).length + 0 =
              ('\\' :: openLabel k).length + (Ast2.displayChunks a).length := by simp; omega
            rw [e1] at this
            simpa using this
          · have := ih2 o rfl (by omega) (fun l t hm => hp l t (by simp [hm])) e c r he hc
            have := this.left ('\\' :: (openLabel k ++ (displayChunks i ++ '\\' :: closeLabel k)))
            have e1 : ('\\' :: (openLabel k ++ (displayChunks i ++ '\\' :: closeLabel k))).length + (Ast2.displayChunks e).length =
              ('\\' :: openLabel k).length + (Ast2.displayChunks (inner ++ .mk l' (.command (.mk (closeLabel k) args')) :: e)).length := by
              simp [Ast2.displayChunks, Ast2.Chunk.display, Ast2.ChunkVariant.display, Ast2.Command.display, hargs']; omega
            rw [e1] at this
            simpa using this
  | unclosed => intro out h; cases h
  | unexpected => intro out h; cases h
  | @scope b l inner sv cs i o hy1 hy2 ih1 ih2 =>
    cases i with
    | error f => intro out h; simp [scopeOutcome] at h
    | ok i =>
      cases o with
      | error f => intro out h; simp [scopeOutcome, before] at h
      | ok o =>
        intro out h hl hp a c r hs hc
        simp only [scopeOutcome, before, Except.ok.injEq] at h
        subst h
        have h1 := hy1.le _ rfl
        have h2 := hy2.le _ rfl
        simp only [displayChunks, displayChunks_append, Chunk.display, ChunkVariant.display, Scope.display,
          display_paragraphs, List.append_nil, List.nil_append,
          Ast2.displayChunks, Ast2.Chunk.display, Ast2.ChunkVariant.display, Ast2.Scope.display,
          List.length_append, List.length_cons] at hl ⊢
        cases a with
        | nil => exact ⟨[], sv.opening, _, rfl, rfl, by cases sv <;> decide⟩
        | cons d a =>
          simp only [List.cons_append, List.cons.injEq] at hs
          obtain ⟨rfl, hs⟩ := hs
          have := (ih2 o rfl (by omega) hp.tail a c r hs hc).left (sv.opening :: (displayChunks i ++ [sv.closing]))
          have e1 : (sv.opening :: (displayChunks i ++ [sv.closing])).length + (Ast2.displayChunks a).length =
              (Ast2.displayChunks (.mk l (.scope (.mk inner sv)) :: a)).length := by
            simp [Ast2.displayChunks, Ast2.Chunk.display, Ast2.ChunkVariant.display, Ast2.Scope.display]; omega
          rw [e1] at this
          simpa using this
  | @command b l label cs o items _ hy1 hy2 ih1 ih2 =>
    intro out h hl hp a c r hs hc
    cases ha : argOutcome items with
    | error f => simp [commandOutcome, ha] at h
    | ok args =>
      cases o with
      | error f => simp [commandOutcome, ha, before] at h
      | ok o =>
        simp only [commandOutcome, ha, before, Except.ok.injEq] at h
        subst h
        have h1 := args_le ha fun x hx => (hy1 x hx).le
        have h2 := hy2.le _ rfl
        simp only [displayChunks, displayChunks_append, Chunk.display, ChunkVariant.display, Command.display,
          List.append_nil, List.nil_append,
          Ast2.displayChunks, Ast2.Chunk.display, Ast2.ChunkVariant.display, Ast2.Command.display,
          List.length_append, List.length_cons] at hl ⊢
        cases a with
        | nil => exact ⟨[], '\\', _, rfl, rfl, by decide⟩
        | cons d a =>
          simp only [List.cons_append, List.cons.injEq] at hs
          obtain ⟨rfl, hs⟩ := hs
          have := (ih2 o rfl (by omega) hp.tail a c r hs hc).left ('\\' :: (label ++ displayArgs args))
          have e1 : ('\\' :: (label ++ displayArgs args)).length + (Ast2.displayChunks a).length =
              (Ast2.displayChunks (.mk l (.command (.mk label (items.map (·.1)))) :: a)).length := by
            simp [Ast2.displayChunks, Ast2.Chunk.display, Ast2.ChunkVariant.display, Ast2.Command.display] at h1 hl ⊢; omega
          rw [e1] at this
          simpa using this
  | @environment b l label body pb pe cs i o items hy1 hy2 hy3 ih1 ih2 ih3 =>
    intro out h hl hp a c r hs hc
    cases ha : argOutcome items with
    | error f => simp [environmentOutcome, ha] at h
    | ok args =>
      cases i with
      | error f => simp [environmentOutcome, ha] at h
      | ok i =>
        cases o with
        | error f => simp [environmentOutcome, ha, before] at h
        | ok o =>
          simp only [environmentOutcome, ha, before, Except.ok.injEq] at h
          subst h
          have h1 := args_le ha fun x hx => (hy1 x hx).le
          have h2 := hy2.le _ rfl
          have h3 := hy3.le _ rfl
          have hl' : (displayChunks o).length = (Ast2.displayChunks cs).length := by
            simp [displayChunks, Chunk.display, ChunkVariant.display, Environment.display, display_paragraphs,
              Ast2.displayChunks, Ast2.Chunk.display, Ast2.ChunkVariant.display, Ast2.Environment.display] at h1 hl
            omega
          cases a with
          | nil => exact ⟨[], '\\', _, by simp only [List.cons_append, displayChunks, Chunk.display, ChunkVariant.display, Environment.display]; rfl, rfl, by decide⟩
          | cons d a =>
            simp only [List.cons_append, List.cons.injEq] at hs
            obtain ⟨rfl, hs⟩ := hs
            have := (ih3 o rfl hl' hp.tail a c r hs hc).left (Environment.display (.mk label args (paragraphs i) pb pe))
            have e1 : (Environment.display (.mk label args (paragraphs i) pb pe)).length + (Ast2.displayChunks a).length =
                (Ast2.displayChunks (.mk l (.environment (.mk label (items.map (·.1)) body pb pe)) :: a)).length := by
              simp [displayChunks, Chunk.display, ChunkVariant.display, Environment.display, display_paragraphs,
                Ast2.displayChunks, Ast2.Chunk.display, Ast2.ChunkVariant.display, Ast2.Environment.display] at h1 hl ⊢
              omega
            rw [e1] at this
            simpa [displayChunks, Chunk.display, ChunkVariant.display] using this

/-! ### what is printed as written is kept -/

theorem dollar_last {a x b : Str} (h : a ++ ['$'] = b ++ x) (hx : '$' ∉ x) : x = [] := by
  rcases List.eq_nil_or_concat x with rfl | ⟨y, c, rfl⟩
  · rfl
  · exfalso
    rw [List.concat_eq_append, ← List.append_assoc] at h
    have := (List.append_inj' h rfl).2
    simp at this
    subst this
    simp at hx

theorem plain_content {kept : List Ast2.Chunk} {l m : Nat} {x : Str} (hk : ∀ c ∈ kept, NotText c) (hx : '$' ∉ x) :
    PlainTexts ((kept ++ textIf2 l x).map (countFrom m)) := by
  intro l' t hm
  rw [List.map_append, List.mem_append] at hm
  rcases hm with hm | hm
  · obtain ⟨⟨l2, v⟩, hc, he⟩ := List.mem_map.1 hm
    simp only [countFrom, Ast2.Chunk.mk.injEq] at he
    exact absurd he.2 (hk _ hc t)
  · unfold textIf2 at hm
    split at hm
    · simp at hm
    · simp [countFrom] at hm
      rw [hm.2]; exact hx

theorem displayArgs2_nil {args : List (Str × Ast2.Scope)} (h : Ast2.displayArgs args = []) : args = [] := by
  cases args with
  | nil => rfl
  | cons x r =>
    obtain ⟨p, ⟨inner, sv⟩⟩ := x
    simp [Ast2.displayArgs, Ast2.Scope.display] at h

theorem Yields.keeps {b cs o} (h : Yields b cs o) : ∀ out, o = .ok out →
    displayChunks out = Ast2.displayChunks cs → KeepsText cs := by
  induction h with
  | nil => intros; exact .nil
  | @text b l t cs o ht hy ih =>
    cases o with
    | error f => intro out h; simp [before] at h
    | ok o =>
      intro out h he
      simp only [before, Except.ok.injEq] at h
      subst h
      simp only [displayChunks_append, display_textIf, Ast2.displayChunks, Ast2.Chunk.display, Ast2.ChunkVariant.display,
        List.append_cancel_left_eq] at he
      exact .text ht (ih o rfl he)
  | @formula b l q r cs lost type content p i o hq hf hc hy1 hy2 ih1 ih2 =>
    cases i with
    | error f => intro out h; simp [blockOutcome] at h
    | ok i =>
      cases o with
      | error f => intro out h; simp [blockOutcome, before] at h
      | ok o =>
        intro out h he
        simp only [blockOutcome, before, Except.ok.injEq] at h
        subst h
        have h1 := hy1.le _ rfl
        have h2 := hy2.le _ rfl
        have ho := hy1.other _ rfl
        have ih1 := ih1 _ rfl
        have ih2 := ih2 _ rfl
        rw [display_countFrom] at h1 ho ih1
        simp only [displayChunks, displayChunks_append, display_textIf, Chunk.display, ChunkVariant.display, MathsBlock.display,
          display_paragraphs, Ast2.displayChunks, Ast2.Chunk.display, Ast2.ChunkVariant.display, List.append_nil,
          List.append_assoc, List.append_cancel_left_eq, List.cons_append, List.length_append] at he h1 h2 ih2
        obtain ⟨g1, g2⟩ := formula_lost hf rfl
        have hl : lost = [] := by
          apply g2
          rcases g1 with g1 | ⟨x, s, g1, g3⟩
          · exact g1
          · rw [g1] at he
            simp only [List.cons_append, List.cons.injEq] at he
            exact absurd he.1 g3
        subst hl
        simp only [displayChunks, List.nil_append] at he
        generalize hl0 : ([] : List Chunk) = lost0 at hf
        cases hf with
        | inline ht hk =>
          subst hl0
          have g := toDollar_disp ht rfl
          simp only [List.nil_append] at g
          simp only [delimiters, List.cons_append, List.cons.injEq, true_and, List.nil_append, g] at he
          rw [Ast2.displayChunks_append, display_textIf2] at h1 ih1
          have e := append_eq_of_le (a := displayChunks i) (a' := Ast2.displayChunks _ ++ p.pending) (by rw [he, List.append_assoc]) h1
            (by simp; exact h2)
          exact .inline hq ht hk (ih1 e.1) (ih2 (List.cons.inj e.2).2)
        | @display lost₁ p₁ lost₂ kept₂ p₂ lost₃ kept₃ _ d1 d2 d3 d4 =>
          obtain ⟨e1, e3⟩ := List.append_eq_nil_iff.1 hl0.symm
          obtain ⟨e1, e2⟩ := List.append_eq_nil_iff.1 e1
          subst e1 e2 e3
          have f1 := toDollar_disp d1 rfl
          have f2 := toDollar_disp d3 rfl
          have p2 := (toDollar_lost d3 (by simp [d2])).1
          have p3 := (toDollar_lost d4 p2).1
          simp only [List.nil_append, d2, Ast2.displayChunks] at f1 f2
          simp only [delimiters, List.cons_append, List.cons.injEq, true_and, List.nil_append, f1, f2] at he
          have k2 := toDollar_kept d3
          have k4 := toDollar_kept d4
          rw [Ast2.displayChunks_append, Ast2.displayChunks_append, display_textIf2] at h1
          simp only [Ast2.displayChunks_append, display_textIf2] at ih1 ho
          have hpt := plain_content (kept := kept₂ ++ kept₃) (l := p.line) (m := p.line) (x := p.pending) (by
            intro c hc
            rcases List.mem_append.1 hc with hc | hc
            · exact k2 c hc
            · exact k4 c hc) p3
          have fin : kept₃ = [] → p.pending = p₂.pending → displayChunks i = Ast2.displayChunks (kept₂ ++ kept₃) ++ p.pending →
              displayChunks o = p.text ++ Ast2.displayChunks p.rest →
              KeepsText (.mk l (.text (q ++ '$' :: r)) :: cs) := by
            intro e1 e2 e3 e4
            subst e1
            have q1 := ih1 (by simpa using e3)
            rw [List.append_nil] at q1
            exact .display hq d1 d2 d3 d4 e2 q1 (ih2 e4)
          generalize hl0 : ([] : List Chunk) = lost0 at d4
          cases d4 with
          | @here l2 pd2 x r2 rest2 hx =>
            simp only [List.append_assoc, List.cons_append, List.nil_append] at he h1 h2
            have e := append_eq_of_le (a := displayChunks i ++ ['$']) (b := '$' :: displayChunks o)
              (a' := Ast2.displayChunks kept₂ ++ (pd2 ++ '$' :: x)) (b' := '$' :: (r2 ++ Ast2.displayChunks rest2))
              (by simpa using he) (by simp [Ast2.displayChunks] at h1 ⊢; omega) (by simp at h2 ⊢; omega)
            have hx0 : x = [] := dollar_last (a := displayChunks i) (b := Ast2.displayChunks kept₂ ++ pd2 ++ ['$']) (by simpa using e.1) hx
            subst hx0
            refine fin rfl (by simp) ?_ (List.cons.inj e.2).2
            have := (List.append_inj' (t₂ := ['$']) (s₂ := Ast2.displayChunks kept₂ ++ pd2) (by simpa using e.1) rfl).1
            simpa [Ast2.displayChunks] using this
          | @later l2 pd2 x ms l' t rest2 lost' kept' _ hx hms d5 =>
            obtain ⟨e1, e2⟩ := List.append_eq_nil_iff.1 hl0.symm
            obtain ⟨e1, e3⟩ := List.append_eq_nil_iff.1 (textIf_nil e1)
            subst e1 e2 e3
            have f3 := toDollar_disp d5 rfl
            simp only [List.nil_append] at f3
            simp only [List.nil_append, Ast2.displayChunks, Ast2.displayChunks_append, Ast2.Chunk.display, Ast2.ChunkVariant.display,
              f3, List.append_assoc, List.length_append] at he h1
            have e := append_eq_of_le (a := displayChunks i ++ ['$']) (b := '$' :: displayChunks o)
              (a' := Ast2.displayChunks kept₂ ++ ('$' :: (Ast2.displayChunks ms ++ (Ast2.displayChunks kept' ++ p.pending))))
              (b' := '$' :: (p.text ++ Ast2.displayChunks p.rest))
              (by simpa using he) (by simp at h1 ⊢; omega) (by simp at h2 ⊢; omega)
            have hk0 : ms ++ kept' = [] := by
              cases hk : ms ++ kept' with
              | nil => rfl
              | cons c k =>
                exfalso
                rw [hk] at ho hpt k4
                have hle := congrArg List.length e.1
                simp at hle
                have hki : (Ast2.displayChunks (c :: k)).length = (Ast2.displayChunks ms).length + (Ast2.displayChunks kept').length := by
                  rw [← hk]; simp
                obtain ⟨u, y, v, w1, w2, w3⟩ := ho (by simp [hki]; omega) hpt
                  (kept₂.map (countFrom p.line)) (countFrom p.line c) ((k ++ textIf2 p.line p.pending).map (countFrom p.line)) (by simp) (by
                    intro t ht
                    obtain ⟨lc, v⟩ := c
                    exact k4 _ (.head _) t ht)
                rw [display_countFrom] at w2
                have w := e.1
                rw [w1, List.append_assoc] at w
                have := (List.append_inj w w2).2
                simp at this
                exact w3 this.1
            obtain ⟨rfl, rfl⟩ := List.append_eq_nil_iff.1 hk0
            have hp0 : p.pending = [] := by
              refine dollar_last (a := displayChunks i) (b := Ast2.displayChunks kept₂ ++ ['$']) ?_ p3
              simpa [Ast2.displayChunks] using e.1
            refine fin rfl (by simpa using hp0) ?_ (List.cons.inj e.2).2
            have := (List.append_inj' (t₂ := ['$']) (s₂ := Ast2.displayChunks kept₂) (by simpa [Ast2.displayChunks, hp0] using e.1) rfl).1
            simpa [hp0] using this
  | uncountable => intro out h; cases h
  | unfinished => intro out h; cases h
  | @brackets b k l args body inner l' args' cs i o hin hy1 hy2 ih1 ih2 =>
    cases i with
    | error f => intro out h; simp [blockOutcome] at h
    | ok i =>
      cases o with
      | error f => intro out h; simp [blockOutcome, before] at h
      | ok o =>
        intro out h he
        simp only [blockOutcome, before, Except.ok.injEq] at h
        subst h
        have h1 := hy1.le _ rfl
        have h2 := hy2.le _ rfl
        have h3 := inside_le hin
        have h4 := delims_bracket k
        have hl := congrArg List.length he
        simp only [displayChunks, displayChunks_append, Chunk.display, ChunkVariant.display, MathsBlock.display,
          display_paragraphs, List.append_nil, List.nil_append, h4.1, h4.2,
          Ast2.displayChunks, Ast2.displayChunks_append, Ast2.Chunk.display, Ast2.ChunkVariant.display, Ast2.Command.display,
          List.length_append, List.length_cons] at hl he
        obtain ⟨rfl, hb⟩ := h3.2 (by omega)
        have ha := displayArgs2_nil (List.length_eq_zero_iff.1 (show (Ast2.displayArgs args).length = 0 by omega))
        have ha' := displayArgs2_nil (List.length_eq_zero_iff.1 (show (Ast2.displayArgs args').length = 0 by omega))
        subst ha ha'
        simp only [Ast2.displayArgs, List.append_nil, List.cons_append, List.append_assoc, List.cons.injEq, true_and,
          List.append_cancel_left_eq] at he
        have e := append_eq_of_le he h1 (by simp; exact h2)
        have e2 : displayChunks o = Ast2.displayChunks cs := by simpa using e.2
        exact .brackets hb (ih1 i rfl e.1) (ih2 o rfl e2)
  | unclosed => intro out h; cases h
  | unexpected => intro out h; cases h
  | @scope b l inner sv cs i o hy1 hy2 ih1 ih2 =>
    cases i with
    | error f => intro out h; simp [scopeOutcome] at h
    | ok i =>
      cases o with
      | error f => intro out h; simp [scopeOutcome, before] at h
      | ok o =>
        intro out h he
        simp only [scopeOutcome, before, Except.ok.injEq] at h
        subst h
        have h1 := hy1.le _ rfl
        have h2 := hy2.le _ rfl
        simp only [displayChunks, displayChunks_append, Chunk.display, ChunkVariant.display, Scope.display,
          display_paragraphs, List.append_nil, Ast2.displayChunks, Ast2.Chunk.display, Ast2.ChunkVariant.display,
          Ast2.Scope.display, List.cons_append, List.append_assoc, List.cons.injEq, true_and, List.nil_append] at he
        have e := append_eq_of_le he h1 (by simp; exact h2)
        exact .scope (ih1 i rfl e.1) (ih2 o rfl (List.cons.inj e.2).2)
  | @command b l label cs o items hd hy1 hy2 ih1 ih2 =>
    intro out h he
    cases ha : argOutcome items with
    | error f => simp [commandOutcome, ha] at h
    | ok args =>
      cases o with
      | error f => simp [commandOutcome, ha, before] at h
      | ok o =>
        simp only [commandOutcome, ha, before, Except.ok.injEq] at h
        subst h
        have h1 := args_le ha fun x hx => (hy1 x hx).le
        have h2 := hy2.le _ rfl
        simp only [displayChunks, displayChunks_append, Chunk.display, ChunkVariant.display, Command.display,
          List.append_nil, Ast2.displayChunks, Ast2.Chunk.display, Ast2.ChunkVariant.display, Ast2.Command.display,
          List.cons_append, List.append_assoc, List.cons.injEq, true_and, List.append_cancel_left_eq] at he
        have e := append_eq_of_le he h1 h2
        have ka := args_keep ha (fun x hx => (hy1 x hx).le) e.1
        refine .command hd ?_ (ih2 o rfl e.2)
        intro x hx
        obtain ⟨y, hy, rfl⟩ := List.mem_map.1 hx
        obtain ⟨out, g1, g2⟩ := ka y hy
        exact ih1 y hy out g1 g2
  | @environment b l label body pb pe cs i o items hy1 hy2 hy3 ih1 ih2 ih3 =>
    intro out h he
    cases ha : argOutcome items with
    | error f => simp [environmentOutcome, ha] at h
    | ok args =>
      cases i with
      | error f => simp [environmentOutcome, ha] at h
      | ok i =>
        cases o with
        | error f => simp [environmentOutcome, ha, before] at h
        | ok o =>
          simp only [environmentOutcome, ha, before, Except.ok.injEq] at h
          subst h
          have h1 := args_le ha fun x hx => (hy1 x hx).le
          have h2 := hy2.le _ rfl
          have h3 := hy3.le _ rfl
          simp only [displayChunks, displayChunks_append, Chunk.display, ChunkVariant.display, Environment.display,
            display_paragraphs, List.append_nil, Ast2.displayChunks, Ast2.Chunk.display, Ast2.ChunkVariant.display,
            Ast2.Environment.display, List.cons_append, List.append_assoc, List.cons.injEq, true_and,
            List.append_cancel_left_eq, List.nil_append] at he
          have e := append_eq_of_le he h1 (by simp; omega)
          have e' := append_eq_of_le e.2 h2 (by simp; omega)
          have e2 : displayChunks o = Ast2.displayChunks cs := by simpa using e'.2
          have ka := args_keep ha (fun x hx => (hy1 x hx).le) e.1
          refine .environment ?_ (ih2 i rfl e'.1) (ih3 o rfl e2)
          intro x hx
          obtain ⟨y, hy, rfl⟩ := List.mem_map.1 hx
          obtain ⟨out, g1, g2⟩ := ka y hy
          exact ih1 y hy out g1 g2

/-! ### what is kept is printed as written -/

theorem args_same {items : List ((Str × Ast2.Scope) × Outcome)} {args} (h : argOutcome items = .ok args)
    (ih : ∀ x ∈ items, ∀ out, x.2 = .ok out → displayChunks out = Ast2.displayChunks x.1.2.chunks) :
    displayArgs args = Ast2.displayArgs (items.map (·.1)) := by
  induction items generalizing args with
  | nil => simp [argOutcome] at h; subst h; simp [displayArgs]
  | cons x r ihr =>
    obtain ⟨⟨p, ⟨inner, sv⟩⟩, o⟩ := x
    cases o with
    | error f => simp [argOutcome] at h
    | ok out =>
      cases ha : argOutcome r with
      | error f => simp [argOutcome, ha] at h
      | ok args' =>
        simp [argOutcome, ha] at h
        subst h
        have h1 := ihr ha fun y hy => ih y (.tail _ hy)
        have h2 := ih _ (.head _) out rfl
        simp only [Ast2.Scope.chunks] at h2
        simp [displayArgs, Ast2.displayArgs, Scope.display, Ast2.Scope.display, display_paragraphs, Ast2.Scope.variant, h1, h2]

theorem notOfKind_inside {k body} (h : ∀ c ∈ body, NotOfKind k c) : Inside k body body := by
  induction body with
  | nil => exact .nil
  | cons c body ih => exact .other (h c (.head _)) (ih fun d hd => h d (.tail _ hd))

theorem KeepsText.same {cs} (h : KeepsText cs) : ∀ b out, Yields b cs (.ok out) →
    displayChunks out = Ast2.displayChunks cs := by
  induction h with
  | nil =>
    intro b out h
    have := yields_unique h .nil
    simp at this
    subst this
    rfl
  | @text l t cs ht _ ih =>
    intro b out h
    obtain ⟨o, ho⟩ := yields_total b cs
    have := yields_unique h (.text ht ho)
    cases o with
    | error f => simp [before] at this
    | ok o =>
      simp only [before, Except.ok.injEq] at this
      subst this
      simp [display_textIf, Ast2.displayChunks, Ast2.Chunk.display, Ast2.ChunkVariant.display, ih b o ho]
  | @inline l q r cs kept p hq hd hk _ _ ih1 ih2 =>
    intro b out h
    by_cases hc : Countable p.line (kept ++ textIf2 p.line p.pending)
    · obtain ⟨i, hi⟩ := yields_total 0 ((kept ++ textIf2 p.line p.pending).map (countFrom p.line))
      obtain ⟨o, ho⟩ := yields_total b (.mk (p.line + p.pending.count '\n') (.text p.text) :: p.rest)
      have := yields_unique h (.formula hq (.inline hd hk) hc hi ho)
      cases i with
      | error f => simp [blockOutcome] at this
      | ok i =>
        cases o with
        | error f => simp [blockOutcome, before] at this
        | ok o =>
          simp only [blockOutcome, before, Except.ok.injEq] at this
          subst this
          have h1 := ih1 0 i hi
          have h2 := ih2 b o ho
          have h3 := toDollar_disp hd rfl
          rw [display_countFrom] at h1
          simp only [Ast2.displayChunks, Ast2.Chunk.display, Ast2.ChunkVariant.display, List.nil_append] at h2 h3
          simp [displayChunks, Chunk.display, ChunkVariant.display, MathsBlock.display, display_paragraphs, display_textIf,
            Ast2.displayChunks, Ast2.Chunk.display, Ast2.ChunkVariant.display, delimiters, h1, h2, h3, display_textIf2]
    · cases yields_unique h (.uncountable hq (.inline hd hk) hc)
  | @display l q r cs p₁ kept p₂ p₃ hq hd1 hp1 hd2 hd3 hp3 _ _ ih1 ih2 =>
    intro b out h
    have hf : Formula ⟨l + q.count '\n', [], r, cs⟩ [] .outline (kept ++ textIf2 p₃.line p₃.pending) p₃ := by
      simpa using Formula.display hd1 hp1 hd2 hd3
    by_cases hc : Countable p₃.line (kept ++ textIf2 p₃.line p₃.pending)
    · obtain ⟨i, hi⟩ := yields_total 0 ((kept ++ textIf2 p₃.line p₃.pending).map (countFrom p₃.line))
      obtain ⟨o, ho⟩ := yields_total b (.mk (p₃.line + p₃.pending.count '\n') (.text p₃.text) :: p₃.rest)
      have := yields_unique h (.formula hq hf hc hi ho)
      cases i with
      | error f => simp [blockOutcome] at this
      | ok i =>
        cases o with
        | error f => simp [blockOutcome, before] at this
        | ok o =>
          simp only [blockOutcome, before, Except.ok.injEq] at this
          subst this
          have h1 := ih1 0 i hi
          have h2 := ih2 b o ho
          have h3 := toDollar_disp hd1 rfl
          have h4 := toDollar_disp hd2 rfl
          have h5 := toDollar_disp hd3 rfl
          rw [display_countFrom] at h1
          simp only [Ast2.displayChunks, Ast2.Chunk.display, Ast2.ChunkVariant.display, List.nil_append, hp1, hp3,
            List.append_cancel_left_eq] at h2 h3 h4 h5
          simp [displayChunks, Chunk.display, ChunkVariant.display, MathsBlock.display, display_paragraphs, display_textIf,
            Ast2.displayChunks, Ast2.Chunk.display, Ast2.ChunkVariant.display, delimiters, h1, h2, h3, h4, h5, display_textIf2, hp3]
    · cases yields_unique h (.uncountable hq hf hc)
  | @brackets k l body l' cs hb _ _ ih1 ih2 =>
    intro b out h
    obtain ⟨i, hi⟩ := yields_total 0 body
    obtain ⟨o, ho⟩ := yields_total l cs
    have := yields_unique h (.brackets (notOfKind_inside hb) hi ho)
    cases i with
    | error f => simp [blockOutcome] at this
    | ok i =>
      cases o with
      | error f => simp [blockOutcome, before] at this
      | ok o =>
        simp only [blockOutcome, before, Except.ok.injEq] at this
        subst this
        simp [displayChunks, Chunk.display, ChunkVariant.display, MathsBlock.display, display_paragraphs,
          Ast2.displayChunks, Ast2.Chunk.display, Ast2.ChunkVariant.display, Ast2.Command.display, delims_bracket,
          Ast2.displayArgs, ih1 0 i hi, ih2 l o ho]
  | @scope l inner sv cs _ _ ih1 ih2 =>
    intro b out h
    obtain ⟨i, hi⟩ := yields_total 0 inner
    obtain ⟨o, ho⟩ := yields_total b cs
    have := yields_unique h (.scope hi ho)
    cases i with
    | error f => simp [scopeOutcome] at this
    | ok i =>
      cases o with
      | error f => simp [scopeOutcome, before] at this
      | ok o =>
        simp only [scopeOutcome, before, Except.ok.injEq] at this
        subst this
        simp [displayChunks, Chunk.display, ChunkVariant.display, Scope.display, display_paragraphs,
          Ast2.displayChunks, Ast2.Chunk.display, Ast2.ChunkVariant.display, Ast2.Scope.display, ih1 0 i hi, ih2 b o ho]
  | @command l label args cs hd _ _ ih1 ih2 =>
    intro b out h
    obtain ⟨items, rfl, hi⟩ := yield_items (args := args) fun x _ => yields_total 0 x.2.chunks
    obtain ⟨o, ho⟩ := yields_total b cs
    have := yields_unique h (.command hd hi ho)
    cases ha : argOutcome items with
    | error f => simp [commandOutcome, ha] at this
    | ok args =>
      cases o with
      | error f => simp [commandOutcome, ha, before] at this
      | ok o =>
        simp only [commandOutcome, ha, before, Except.ok.injEq] at this
        subst this
        have h1 := args_same ha fun x hx out ho => ih1 x.1 (List.mem_map.2 ⟨x, hx, rfl⟩) 0 out (ho ▸ hi x hx)
        simp only [displayChunks, displayChunks_append, Chunk.display, ChunkVariant.display, Command.display,
          Ast2.displayChunks, Ast2.Chunk.display, Ast2.ChunkVariant.display, Ast2.Command.display, h1, ih2 b o ho, List.append_nil]
  | @environment l label args body pb pe cs _ _ _ ih1 ih2 ih3 =>
    intro b out h
    obtain ⟨items, rfl, hi⟩ := yield_items (args := args) fun x _ => yields_total 0 x.2.chunks
    obtain ⟨i, hi'⟩ := yields_total 0 body
    obtain ⟨o, ho⟩ := yields_total b cs
    have := yields_unique h (.environment hi hi' ho)
    cases ha : argOutcome items with
    | error f => simp [environmentOutcome, ha] at this
    | ok args =>
      cases i with
      | error f => simp [environmentOutcome, ha] at this
      | ok i =>
        cases o with
        | error f => simp [environmentOutcome, ha, before] at this
        | ok o =>
          simp only [environmentOutcome, ha, before, Except.ok.injEq] at this
          subst this
          have h1 := args_same ha fun x hx out ho => ih1 x.1 (List.mem_map.2 ⟨x, hx, rfl⟩) 0 out (ho ▸ hi x hx)
          simp only [displayChunks, displayChunks_append, Chunk.display, ChunkVariant.display, Environment.display, display_paragraphs,
            Ast2.displayChunks, Ast2.Chunk.display, Ast2.ChunkVariant.display, Ast2.Environment.display, h1, ih2 0 i hi', ih3 b o ho,
            List.append_nil]

/-- The result of the maths conversion prints as the input exactly when nothing is dropped or moved. -/
theorem mathsFromChunks_keeps {cs out} (h : mathsFromChunks cs = .ok out) :
    displayChunks out = Ast2.displayChunks cs ↔ KeepsText cs := by
  obtain ⟨o, ho, he⟩ := yields_iff.1 h
  cases o with
  | error f => simp [inParagraphs] at he
  | ok o =>
    simp only [inParagraphs, Except.ok.injEq] at he
    subst he
    rw [display_paragraphs]
    exact ⟨ho.keeps o rfl, fun hk => hk.same 0 o ho⟩

theorem mathsFromChunks_le {cs out} (h : mathsFromChunks cs = .ok out) :
    (displayChunks out).length ≤ (Ast2.displayChunks cs).length := by
  obtain ⟨o, ho, he⟩ := yields_iff.1 h
  cases o with
  | error f => simp [inParagraphs] at he
  | ok o =>
    simp only [inParagraphs, Except.ok.injEq] at he
    subst he
    rw [display_paragraphs]
    exact ho.le o rfl

end LatexAst.Ast3
