import Verif.Proofs.Again3e

/-! Going from stage 3 to stage 2 and back: what the conversion makes is numbered from 1, and going again changes nothing more. -/

namespace LatexAst.Ast3
open Spec

theorem piecesFrom_le {n cs} (h : PiecesFrom n cs) : ∀ c ∈ cs, n ≤ c.lineNo := by
  induction h with
  | nil => simp
  | text _ ih =>
    intro c hc
    rcases List.mem_cons.1 hc with rfl | hc
    · exact Nat.le_refl _
    · have := ih c hc; omega
  | «break» _ ih =>
    intro c hc
    rcases List.mem_cons.1 hc with rfl | hc
    · exact Nat.le_add_right _ _
    · have := ih c hc; omega

theorem textIf_lines {l t} : ∀ c ∈ paragraphs (textIf l t), l ≤ c.lineNo := by
  unfold textIf
  split
  · intro c hc; cases hc
  · have h := split_total [.mk l (.text t)]
    generalize paragraphs [.mk l (.text t)] = x at h
    cases h with
    | text h1 h2 h3 h4 => cases h4; rw [List.append_nil]; exact piecesFrom_le h3
    | other h1 _ => exact absurd rfl (h1 t)

theorem closed_args {items : List ((Str × Ast2.Scope) × Outcome)} {Q} : ∀ {args}, argOutcome items = .ok args →
    (∀ x ∈ items, ∀ raw, x.2 = .ok raw → EveryDollars Q (paragraphs raw)) → ∀ x ∈ args, EveryDollars Q x.2.chunks := by
  induction items with
  | nil => intro args h _; simp [argOutcome] at h; subst h; simp
  | cons x items ih =>
    obtain ⟨⟨p, sc⟩, o⟩ := x
    intro args h hr
    cases o with
    | error f => simp [argOutcome] at h
    | ok raw =>
      simp only [argOutcome] at h
      cases ha : argOutcome items with
      | error f => simp [ha] at h
      | ok as =>
        simp only [ha] at h
        cases h
        intro x hx
        rcases List.mem_cons.1 hx with rfl | hx
        · exact hr _ (.head _) raw rfl
        · exact ih ha (fun x hx => hr x (.tail _ hx)) x hx

theorem yields_closed {b ds o} (h : Yields b ds o) : ∀ raw, o = .ok raw → ClosedBelow (paragraphs raw) := by
  unfold ClosedBelow
  induction h with
  | nil => intro raw hr; cases hr; exact everyDollars_nil
  | @text b l t cs o ht hy ih =>
    intro raw hr
    obtain ⟨raw', rfl, rfl⟩ := before_ok hr
    rw [paragraphs_append, everyDollars_append]
    exact ⟨everyDollars_pieces (textIf_pieces ht), ih raw' rfl⟩
  | @formula b l q r cs lost type content p i o hq hf hcn hy1 _ ih1 ih2 =>
    intro raw hr
    cases i with
    | error f => simp [blockOutcome] at hr
    | ok ri =>
      obtain ⟨raw', rfl, rfl⟩ := before_ok hr
      obtain ⟨kept, rfl, k1, k2, k3, k4, k5, k6⟩ := formula_parts hf (by simp)
      have m1 := yields_made hy1 ri rfl
      obtain ⟨rawM, rfl, n1, n2⟩ := m1.nodes (kept.map (countFrom p.line)) (p.line - (p.line - 1)) p.pending (by
          rw [List.map_append]; congr 1; unfold textIf2; split <;> rfl)
        (variants_notText (variants_count _ _) k1) k4
      have hi := ih1 _ rfl
      have hpara : paragraphs (rawM ++ textIf (p.line - (p.line - 1)) p.pending) = rawM ++ paragraphs (textIf (p.line - (p.line - 1)) p.pending) := by
        rw [paragraphs_append, textless_paragraphs n1]
      rw [List.append_assoc, List.append_assoc, ← List.append_assoc, paragraphs_append, paragraphs_node (by intro t h; cases h), everyDollars_append,
        everyDollars_maths, paragraphs_append, everyDollars_append]
      refine ⟨⟨everyDollars_pieces (textIf_pieces hq), everyDollars_pieces (texts_pieces k5)⟩, ⟨?_, hi⟩, ih2 raw' rfl⟩
      intro _ a c he hc
      rw [hpara] at he
      by_cases hpe : p.pending = []
      · rw [hpe, textIf, if_pos rfl, show paragraphs [] = [] from rfl, List.append_nil] at he
        exact absurd hc (textless_not_text n1 c (by simp [he]))
      · have hl1 : 1 ≤ p.line := by
          rcases hcn with h | h
          · simp [textIf2, hpe] at h
          · exact h.1
        have hpn : paragraphs (textIf (p.line - (p.line - 1)) p.pending) ≠ [] := by
          intro h
          have := (paragraphs_textIf (p.line - (p.line - 1)) p.pending).2
          rw [h] at this
          exact hpe this.symm
        have hln := textIf_lines (l := p.line - (p.line - 1)) (t := p.pending)
        generalize paragraphs (textIf (p.line - (p.line - 1)) p.pending) = ps at hpn he hln
        rcases List.eq_nil_or_concat ps with rfl | ⟨left, last, rfl⟩
        · exact absurd rfl hpn
        · rw [List.concat_eq_append, ← List.append_assoc] at he
          have := (List.append_inj' he rfl).2
          simp only [List.cons.injEq, and_true] at this
          subst this
          have := hln last (by simp)
          omega
  | uncountable => intro raw hr; cases hr
  | unfinished => intro raw hr; cases hr
  | @brackets b k l args body inner l' args' cs i o hin _ _ ih1 ih2 =>
    intro raw hr
    cases i with
    | error f => simp [blockOutcome] at hr
    | ok ri =>
      obtain ⟨raw', rfl, rfl⟩ := before_ok hr
      rw [List.nil_append, paragraphs_node (by intro t h; cases h), everyDollars_maths]
      exact ⟨⟨(by intro h; cases h), ih1 ri rfl⟩, ih2 raw' rfl⟩
  | unclosed => intro raw hr; cases hr
  | unexpected => intro raw hr; cases hr
  | @scope b l inner sv cs i o _ _ ih1 ih2 =>
    intro raw hr
    cases i with
    | error f => simp [scopeOutcome] at hr
    | ok ri =>
      obtain ⟨raw', rfl, rfl⟩ := before_ok hr
      rw [paragraphs_node (by intro t h; cases h), everyDollars_scope]
      exact ⟨ih1 ri rfl, ih2 raw' rfl⟩
  | @command b l label cs o items hl _ _ ih1 ih2 =>
    intro raw hr
    unfold commandOutcome at hr
    cases ha : argOutcome items with
    | error f => simp [ha] at hr
    | ok as =>
      simp only [ha] at hr
      obtain ⟨raw', rfl, rfl⟩ := before_ok hr
      rw [paragraphs_node (by intro t h; cases h), everyDollars_command]
      exact ⟨closed_args ha ih1, ih2 raw' rfl⟩
  | @environment b l label body pb pe cs i o items _ _ _ ih1 ih3 ih2 =>
    intro raw hr
    unfold environmentOutcome at hr
    cases ha : argOutcome items with
    | error f => simp [ha] at hr
    | ok as =>
      cases i with
      | error f => simp [ha] at hr
      | ok ri =>
        simp only [ha] at hr
        obtain ⟨raw', rfl, rfl⟩ := before_ok hr
        rw [paragraphs_node (by intro t h; cases h), everyDollars_environment]
        exact ⟨closed_args ha ih1, ih3 ri rfl, ih2 raw' rfl⟩

/-! ### going again -/

theorem resettles_textless {ms ms'} (h : Resettles ms ms') : Textless ms → Textless ms' := by
  induction h with
  | nil => exact id
  | piece hp => intro h; cases hp <;> cases h
  | command _ _ _ _ ih => intro h; cases h; exact .command (ih ‹_›)
  | scope _ _ _ ih => intro h; cases h; exact .scope (ih ‹_›)
  | environment _ _ _ _ _ ih => intro h; cases h; exact .environment (ih ‹_›)
  | brackets _ _ _ ih1 ih2 => intro h; cases h with | brackets h1 h2 => exact .brackets (ih1 h1) (ih2 h2)
  | plain => intro h; cases h
  | dollars => intro h; cases h

theorem refilled_mem {items : List ((Str × Scope) × List Chunk)} {P : List Chunk → Prop} (h : ∀ x ∈ items, P x.2) :
    ∀ x ∈ refilled items, P x.2.chunks := by
  induction items with
  | nil => simp [refilled]
  | cons y items ih =>
    obtain ⟨⟨p, sc⟩, cs⟩ := y
    intro x hx
    rcases List.mem_cons.1 hx with rfl | hx
    · exact h _ (.head _)
    · exact ih (fun x hx => h x (.tail _ hx)) x hx

/-- What comes back has at most one piece of text in every formula in dollar signs. -/
theorem Resettles.onePiece {cs out'} (h : Resettles cs out') : OnePiece out' := by
  unfold OnePiece
  induction h with
  | nil => exact everyDollars_nil
  | @piece c rest rest' hp _ ih => exact everyDollars_cons.2 ⟨everyDollars_pieces (by simpa using hp), ih⟩
  | command _ _ _ ih1 ih2 => exact everyDollars_command.2 ⟨refilled_mem ih1, ih2⟩
  | scope _ _ ih1 ih2 => exact everyDollars_scope.2 ⟨ih1, ih2⟩
  | environment _ _ _ ih1 ih3 ih2 => exact everyDollars_environment.2 ⟨refilled_mem ih1, ih3, ih2⟩
  | brackets _ _ _ ih1 ih2 => exact everyDollars_maths.2 ⟨⟨(by intro h; cases h), ih1⟩, ih2⟩
  | plain _ ht hms _ ih1 ih2 => exact everyDollars_maths.2 ⟨⟨fun _ => textOnlyLast_plain (resettles_textless hms ht), ih1⟩, ih2⟩
  | @dollars l k ms ms' left last rest rest' ht hms hp hq _ ih1 ih2 =>
    refine everyDollars_append.2 ⟨everyDollars_pieces hp, everyDollars_maths.2 ⟨⟨fun _ => ?_, everyDollars_append.2 ⟨ih1, everyDollars_pieces (by simpa using hq)⟩⟩, ih2⟩⟩
    have := (textOnlyLast_iff (left := []) (last := last) (resettles_textless hms ht) (by simp)).2 rfl
    simpa using this

theorem mem_same {a b : List Chunk} (h : noLines a = noLines b) {l v} (hm : Chunk.mk l v ∈ a) : ∃ l' v', Chunk.mk l' v' ∈ b ∧ v'.noLines = v.noLines := by
  induction a generalizing b with
  | nil => cases hm
  | cons c a ih =>
    obtain ⟨l0, v0⟩ := c
    obtain ⟨l', v', r', rfl, h1, h2⟩ := noLines_cons_eq h.symm
    rcases List.mem_cons.1 hm with hm | hm
    · cases hm; exact ⟨l', v', .head _, h1⟩
    · obtain ⟨l2, v2, h3, h4⟩ := ih h2.symm hm
      exact ⟨l2, v2, .tail _ h3, h4⟩

/-- What is within chunks does not depend on line numbers. -/
theorem within_same {a v} (h : Within a v) : ∀ {b}, noLines a = noLines b → ∃ v', Within b v' ∧ v'.noLines = v.noLines := by
  induction h with
  | here hm =>
    intro b hb
    obtain ⟨l', v', h1, h2⟩ := mem_same hb hm
    exact ⟨v', .here h1, h2⟩
  | scope hm _ ih =>
    intro b hb
    obtain ⟨l', v', h1, h2⟩ := mem_same hb hm
    cases v' <;> simp only [ChunkVariant.noLines, reduceCtorEq, ChunkVariant.scope.injEq] at h2
    rename_i s
    obtain ⟨inner', sv'⟩ := s
    simp only [Scope.noLines, Scope.mk.injEq] at h2
    obtain ⟨w, h3, h4⟩ := ih h2.1.symm
    exact ⟨w, .scope h1 h3, h4⟩
  | @arg cs l label args prec inner sv v hm hx _ ih =>
    intro b hb
    obtain ⟨l', v', h1, h2⟩ := mem_same hb hm
    cases v' <;> simp only [ChunkVariant.noLines, reduceCtorEq, ChunkVariant.command.injEq] at h2
    rename_i c
    obtain ⟨label', args'⟩ := c
    simp only [Command.noLines, Command.mk.injEq] at h2
    obtain ⟨⟨p', ⟨inner', sv'⟩⟩, hy, he⟩ := noLinesArgs_same h2.2.symm _ hx
    obtain ⟨w, h3, h4⟩ := ih he
    exact ⟨w, .arg h1 hy h3, h4⟩
  | @envArg cs l label args content pb pe prec inner sv v hm hx _ ih =>
    intro b hb
    obtain ⟨l', v', h1, h2⟩ := mem_same hb hm
    cases v' <;> simp only [ChunkVariant.noLines, reduceCtorEq, ChunkVariant.environment.injEq] at h2
    rename_i c
    obtain ⟨label', args', content', pb', pe'⟩ := c
    simp only [Environment.noLines, Environment.mk.injEq] at h2
    obtain ⟨⟨p', ⟨inner', sv'⟩⟩, hy, he⟩ := noLinesArgs_same h2.2.1.symm _ hx
    obtain ⟨w, h3, h4⟩ := ih he
    exact ⟨w, .envArg h1 hy h3, h4⟩
  | @envContent cs l label args content pb pe v hm _ ih =>
    intro b hb
    obtain ⟨l', v', h1, h2⟩ := mem_same hb hm
    cases v' <;> simp only [ChunkVariant.noLines, reduceCtorEq, ChunkVariant.environment.injEq] at h2
    rename_i c
    obtain ⟨label', args', content', pb', pe'⟩ := c
    simp only [Environment.noLines, Environment.mk.injEq] at h2
    obtain ⟨w, h3, h4⟩ := ih h2.2.2.1.symm
    exact ⟨w, .envContent h1 h3, h4⟩
  | @maths cs l mv mt content v hm _ ih =>
    intro b hb
    obtain ⟨l', v', h1, h2⟩ := mem_same hb hm
    cases v' <;> simp only [ChunkVariant.noLines, reduceCtorEq, ChunkVariant.mathsBlock.injEq] at h2
    rename_i c
    obtain ⟨mv', mt', content'⟩ := c
    simp only [MathsBlock.noLines, MathsBlock.mk.injEq] at h2
    obtain ⟨w, h3, h4⟩ := ih h2.2.2.symm
    exact ⟨w, .maths h1 h3, h4⟩

theorem textOnlyLast_same {a b : List Chunk} (h : noLines a = noLines b) (ha : TextOnlyLast a) : TextOnlyLast b := by
  rintro x ⟨l, v⟩ y rfl hc
  obtain ⟨x', z, rfl, h1, h2⟩ := noLines_append_eq h
  obtain ⟨l', v', r', rfl, h3, h4⟩ := noLines_cons_eq h2
  have := ha x' _ r' rfl ((textLike_same h3).2 hc)
  subst this
  have := congrArg List.length h4
  rw [noLines_length, noLines_length] at this
  exact List.length_eq_zero_iff.1 this.symm

theorem onePiece_same {a b : List Chunk} (h : noLines a = noLines b) (ha : OnePiece a) : OnePiece b := by
  intro k content hw
  obtain ⟨v', h1, h2⟩ := within_same hw h.symm
  cases v' <;> simp only [ChunkVariant.noLines, reduceCtorEq, ChunkVariant.mathsBlock.injEq] at h2
  rename_i c
  obtain ⟨mv', mt', content'⟩ := c
  simp only [MathsBlock.noLines, MathsBlock.mk.injEq] at h2
  obtain ⟨rfl, rfl, h2⟩ := h2
  exact textOnlyLast_same h2 (ha _ _ h1)

end LatexAst.Ast3
