import Verif.Proofs.Again3b

/-! What the conversion makes can go to stage 2 and back by the rule. -/

namespace LatexAst.Ast3
open Spec

theorem textless_paragraphs {ms} (h : Textless ms) : paragraphs ms = ms := by
  induction h with
  | nil => rfl
  | command _ ih => rw [paragraphs_other (by intro t h; cases h), ih]
  | scope _ ih => rw [paragraphs_other (by intro t h; cases h), ih]
  | environment _ ih => rw [paragraphs_other (by intro t h; cases h), ih]
  | brackets _ _ _ ih => rw [paragraphs_other (by intro t h; cases h), ih]

theorem Cut.pieces {b vs} (h : Cut b vs) : ∀ v ∈ vs, (∃ t, v = .text t ∧ IsParagraph t) ∨ ∃ s, v = .paragraphBreak s ∧ IsBreak s := by
  induction h with
  | nil => simp
  | last h => intro v hv; simp only [List.mem_singleton] at hv; exact .inl ⟨_, hv, h⟩
  | text h1 _ _ h2 _ ih =>
    intro v hv
    simp only [List.mem_cons] at hv
    rcases hv with rfl | rfl | hv
    · exact .inl ⟨_, rfl, h1⟩
    · exact .inr ⟨_, rfl, h2⟩
    · exact ih v hv
  | «break» h1 _ ih =>
    intro v hv
    simp only [List.mem_cons] at hv
    rcases hv with rfl | hv
    · exact .inr ⟨_, rfl, h1⟩
    · exact ih v hv

/-- A text without dollar signs is cut into pieces. -/
theorem textIf_pieces {l t} (ht : '$' ∉ t) : ∀ c ∈ paragraphs (textIf l t), IsPiece c := by
  intro c hc
  obtain ⟨h1, h2⟩ := paragraphs_textIf l t
  obtain ⟨l', v⟩ := c
  have hv := h1.pieces v (List.mem_map.2 ⟨_, hc, rfl⟩)
  rcases hv with ⟨s, rfl, h⟩ | ⟨s, rfl, h⟩
  · refine .text h fun hd => ht ?_
    rw [← h2]
    clear h1 h2
    generalize paragraphs (textIf l t) = x at hc
    induction x with
    | nil => cases hc
    | cons a x ih =>
      simp only [displayChunks, List.mem_append]
      rcases List.mem_cons.1 hc with rfl | hc
      · exact .inl hd
      · exact .inr (ih hc)
  · exact .break h

theorem texts_pieces {cs : List Chunk} (h : ∀ c ∈ cs, ∃ l t, c = .mk l (.text t) ∧ '$' ∉ t) : ∀ c ∈ paragraphs cs, IsPiece c := by
  induction cs with
  | nil => intro c hc; cases hc
  | cons a cs ih =>
    obtain ⟨l, t, rfl, ht⟩ := h _ (.head _)
    intro c hc
    rw [show Chunk.mk l (.text t) :: cs = [.mk l (.text t)] ++ cs from rfl, paragraphs_append] at hc
    rcases List.mem_append.1 hc with hc | hc
    · by_cases he : t = []
      · subst he
        exfalso
        have h := split_total [.mk l (.text [])]
        generalize paragraphs [.mk l (.text [])] = x at h hc
        cases h with
        | @text _ _ _ pieces _ h1 h2 h3 h4 =>
          cases h4
          rw [List.append_nil] at hc
          have h5 := cut_nonempty h1 c.variant (List.mem_map.2 ⟨c, hc, rfl⟩)
          clear h1 h3
          induction pieces with
          | nil => cases hc
          | cons a x ih =>
            simp only [displayChunks, List.append_eq_nil_iff] at h2
            rcases List.mem_cons.1 hc with rfl | hc
            · exact h5 (by obtain ⟨l, v⟩ := c; exact h2.1)
            · exact ih h2.2 hc
        | other h1 _ => exact absurd rfl (h1 [])
      · have : [Chunk.mk l (.text t)] = textIf l t := by rw [textIf, if_neg he]
        rw [this] at hc
        exact textIf_pieces ht c hc
    · exact ih (fun c hc => h c (.tail _ hc)) c hc

theorem toDollar_clean {p lost kept p'} (h : ToDollar p lost kept p') (hp : '$' ∉ p.pending) :
    '$' ∉ p'.pending ∧ ∀ c ∈ lost, ∃ l t, c = .mk l (.text t) ∧ '$' ∉ t := by
  induction h with
  | here hx => exact ⟨by simp_all, by simp⟩
  | @later l q x ms l' t rest lost kept p hx _ _ ih =>
    obtain ⟨h1, h2⟩ := ih (by simp)
    refine ⟨h1, ?_⟩
    intro c hc
    rcases List.mem_append.1 hc with hc | hc
    · unfold textIf at hc
      split at hc
      · cases hc
      · simp only [List.mem_singleton] at hc
        exact ⟨l, q ++ x, hc, by simp_all⟩
    · exact h2 c hc

theorem toDollar_sub {p lost kept p'} (h : ToDollar p lost kept p') : (∀ c ∈ kept, c ∈ p.rest) ∧ ∀ c ∈ p'.rest, c ∈ p.rest := by
  induction h with
  | here => exact ⟨by simp, fun c h => h⟩
  | later _ _ _ ih =>
    obtain ⟨h1, h2⟩ := ih
    refine ⟨?_, fun c hc => by simp [h2 c hc]⟩
    intro c hc
    rcases List.mem_append.1 hc with hc | hc
    · simp [hc]
    · simp [h1 c hc]

/-- What a formula is made of. -/
theorem formula_parts {p lost type content p'} (h : Formula p lost type content p') (hp : '$' ∉ p.pending) :
    ∃ kept, content = kept ++ textIf2 p'.line p'.pending ∧ (∀ c ∈ kept, NotText c) ∧ (∀ c ∈ kept, c ∈ p.rest) ∧ (∀ c ∈ p'.rest, c ∈ p.rest) ∧
      '$' ∉ p'.pending ∧ (∀ c ∈ lost, ∃ l t, c = .mk l (.text t) ∧ '$' ∉ t) ∧ (type = .inline → kept ≠ [] ∨ p'.pending ≠ []) := by
  cases h with
  | inline h1 h2 =>
    obtain ⟨a, b⟩ := toDollar_clean h1 hp
    exact ⟨_, rfl, toDollar_kept h1, (toDollar_sub h1).1, (toDollar_sub h1).2, a, b, fun _ => h2⟩
  | display h1 h2 h3 h4 =>
    obtain ⟨a1, b1⟩ := toDollar_clean h1 hp
    obtain ⟨a2, b2⟩ := toDollar_clean h3 a1
    obtain ⟨a3, b3⟩ := toDollar_clean h4 a2
    have s1 := toDollar_sub h1
    have s2 := toDollar_sub h3
    have s3 := toDollar_sub h4
    refine ⟨_, rfl, ?_, ?_, fun c hc => s1.2 c (s2.2 c (s3.2 c hc)), a3, ?_, by intro h; cases h⟩
    · intro c hc
      rcases List.mem_append.1 hc with hc | hc
      · exact toDollar_kept h3 c hc
      · exact toDollar_kept h4 c hc
    · intro c hc
      rcases List.mem_append.1 hc with hc | hc
      · exact s1.2 c (s2.1 c hc)
      · exact s1.2 c (s2.2 c (s3.1 c hc))
    · intro c hc
      rcases List.mem_append.1 hc with hc | hc
      · rcases List.mem_append.1 hc with hc | hc
        · exact b1 c hc
        · exact b2 c hc
      · exact b3 c hc

theorem inside_none {k body inner} (h : Inside k body inner) : (∀ c ∈ inner, NotOfKind k c) ∧ ∀ c ∈ inner, c ∈ body := by
  induction h with
  | nil => exact ⟨by simp, by simp⟩
  | other h1 _ ih =>
    refine ⟨?_, ?_⟩
    · intro c hc
      rcases List.mem_cons.1 hc with rfl | hc
      · exact h1
      · exact ih.1 c hc
    · intro c hc
      rcases List.mem_cons.1 hc with rfl | hc
      · exact .head _
      · exact .tail _ (ih.2 c hc)
  | nested _ _ ih1 ih2 =>
    refine ⟨?_, ?_⟩
    · intro c hc
      rcases List.mem_append.1 hc with hc | hc
      · exact ih1.1 c hc
      · exact ih2.1 c hc
    · intro c hc
      rcases List.mem_append.1 hc with hc | hc
      · simp [ih1.2 c hc]
      · simp [ih2.2 c hc]

theorem resettles_pieces {a r r' : List Chunk} (ha : ∀ c ∈ a, IsPiece c) (h : Resettles r r') : Resettles (a ++ r) (a ++ r') := by
  induction a with
  | nil => exact h
  | cons c a ih => exact .piece (ha c (.head _)) (ih fun c hc => ha c (.tail _ hc))

theorem resettles_prefix {a b out : List Chunk} (h : Resettles (a ++ b) out) : ∃ out', Resettles a out' := by
  induction a generalizing out with
  | nil => exact ⟨[], .nil⟩
  | cons c a ih =>
    rw [List.cons_append] at h
    cases h with
    | piece h1 h2 => obtain ⟨o, ho⟩ := ih h2; exact ⟨_, .piece h1 ho⟩
    | command h1 h2 h3 => obtain ⟨o, ho⟩ := ih h3; exact ⟨_, .command h1 h2 ho⟩
    | scope h1 h2 => obtain ⟨o, ho⟩ := ih h2; exact ⟨_, .scope h1 ho⟩
    | environment h1 h2 h3 => obtain ⟨o, ho⟩ := ih h3; exact ⟨_, .environment h1 h2 ho⟩
    | brackets h1 h2 h3 => obtain ⟨o, ho⟩ := ih h3; exact ⟨_, .brackets h1 h2 ho⟩
    | plain h1 h2 h3 h4 => obtain ⟨o, ho⟩ := ih h4; exact ⟨_, .plain h1 h2 h3 ho⟩
    | dollars h1 h2 h3 h4 h5 => obtain ⟨o, ho⟩ := ih h5; exact ⟨_, .dollars h1 h2 h3 h4 ho⟩

theorem without_pieces {k} {a r : List Chunk} (ha : ∀ c ∈ a, IsPiece c) (h : Without k r) : Without k (a ++ r) := by
  induction a with
  | nil => exact h
  | cons c a ih =>
    have := ih fun c hc => ha c (.tail _ hc)
    have hc := ha c (.head _)
    cases hc with
    | text => exact .other (by intro m h; cases h) this
    | «break» => exact .other (by intro m h; cases h) this

theorem split_tail {A B M : List Ast2.Chunk} {c : Ast2.Chunk} {l t} (h : A ++ c :: B = M ++ textIf2 l t) (hc : NotText c) :
    ∃ M2, B = M2 ++ textIf2 l t ∧ M = A ++ c :: M2 := by
  unfold textIf2 at *
  split at h
  · rename_i he
    simp only [he, if_true] at *
    exact ⟨B, by simp, by simpa using h.symm⟩
  · rename_i he
    simp only [he, if_false] at *
    rcases List.eq_nil_or_concat B with rfl | ⟨B', d, rfl⟩
    · have := (List.append_inj' h rfl).2
      simp only [List.cons.injEq, and_true] at this
      subst this
      exact absurd rfl (hc t)
    · have h' : (A ++ c :: B') ++ [d] = M ++ [.mk l (.text t)] := by simpa using h
      obtain ⟨h1, h2⟩ := List.append_inj' h' rfl
      exact ⟨B', by rw [List.concat_eq_append, h2], h1.symm⟩

theorem arg_items {items : List ((Str × Ast2.Scope) × Outcome)} : ∀ {args}, argOutcome items = .ok args →
    (∀ x ∈ items, ∀ raw, x.2 = .ok raw → ∃ out', Resettles (paragraphs raw) out') →
    ∃ its : List ((Str × Scope) × List Chunk), args = its.map (·.1) ∧ ∀ x ∈ its, Resettles x.1.2.chunks x.2 := by
  induction items with
  | nil => intro args h _; simp [argOutcome] at h; subst h; exact ⟨[], rfl, by simp⟩
  | cons x items ih =>
    obtain ⟨⟨p, sc⟩, o⟩ := x
    intro args h hr
    cases o with
    | error f => simp [argOutcome] at h
    | ok raw =>
      simp only [argOutcome] at h
      cases ha : argOutcome items with
      | error f => simp [ha] at h
      | ok as =>
        simp only [ha] at h
        cases h
        obtain ⟨its, rfl, h2⟩ := ih ha fun x hx => hr x (.tail _ hx)
        obtain ⟨out', ho⟩ := hr _ (.head _) raw rfl
        refine ⟨((p, .mk (paragraphs raw) sc.variant), out') :: its, rfl, ?_⟩
        intro x hx
        rcases List.mem_cons.1 hx with rfl | hx
        · exact ho
        · exact h2 x hx

/-- What is proved of the chunks `raw` made of `ds`. -/
structure Made (ds : List Ast2.Chunk) (raw : List Chunk) : Prop where
  rule : ∃ out', Resettles (paragraphs raw) out'
  without : ∀ k, (∀ c ∈ ds, NotOfKind k c) → Without k (paragraphs raw)
  nodes : ∀ M l t, ds = M ++ textIf2 l t → (∀ m ∈ M, NotText m) → '$' ∉ t →
    ∃ rawM, raw = rawM ++ textIf l t ∧ Textless rawM ∧ (M ≠ [] → rawM ≠ [])

theorem paragraphs_node {c : Chunk} {b} (h : ∀ t, c.variant ≠ .text t) : paragraphs ([c] ++ b) = c :: paragraphs b := paragraphs_other h b

theorem yields_made {b ds o} (h : Yields b ds o) : ∀ raw, o = .ok raw → Made ds raw := by
  induction h with
  | nil =>
    intro raw hr
    cases hr
    refine ⟨⟨[], .nil⟩, fun _ _ => .nil, ?_⟩
    intro M l t he _ _
    have h2 := List.append_eq_nil_iff.1 he.symm
    have ht : t = [] := by
      by_cases ht : t = []
      · exact ht
      · simp [textIf2, ht] at h2
    subst ht
    exact ⟨[], by simp [textIf], .nil, fun h => absurd h2.1 h⟩
  | @text b l t cs o ht hy ih =>
    intro raw hr
    obtain ⟨raw', rfl, rfl⟩ := before_ok hr
    have m := ih raw' rfl
    have hp := textIf_pieces (l := l) ht
    refine ⟨?_, ?_, ?_⟩
    · obtain ⟨o, ho⟩ := m.rule
      rw [paragraphs_append]
      exact ⟨_, resettles_pieces hp ho⟩
    · intro k hk
      rw [paragraphs_append]
      exact without_pieces hp (m.without k fun c hc => hk c (.tail _ hc))
    · intro M l' t' he hM ht'
      cases M with
      | cons c M => simp only [List.cons_append, List.cons.injEq] at he; exact absurd (by rw [← he.1]; rfl) (hM c (.head _) t)
      | nil =>
        unfold textIf2 at he
        split at he
        · simp at he
        · simp only [List.nil_append, List.cons.injEq, Ast2.Chunk.mk.injEq, Ast2.ChunkVariant.text.injEq] at he
          obtain ⟨⟨rfl, rfl⟩, rfl⟩ := he
          obtain ⟨r, h1, h2, h3⟩ := m.nodes [] 0 [] rfl (by simp) (by simp)
          have : r = [] := by
            have := yields_unique hy .nil
            cases this
            simpa [textIf] using h1.symm
          subst this
          exact ⟨[], by simp [h1, textIf], .nil, by simp⟩
  | @formula b l q r cs lost type content p i o hq hf hcn _ _ ih1 ih2 =>
    intro raw hr
    cases i with
    | error f => simp [blockOutcome] at hr
    | ok ri =>
      obtain ⟨raw', rfl, rfl⟩ := before_ok hr
      obtain ⟨kept, rfl, k1, k2, k3, k4, k5, k6⟩ := formula_parts hf (by simp)
      have m1 := ih1 ri rfl
      have m2 := ih2 raw' rfl
      obtain ⟨rawM, rfl, n1, n2⟩ := m1.nodes (kept.map (countFrom p.line)) (p.line - (p.line - 1)) p.pending (by
          rw [List.map_append]; congr 1; unfold textIf2; split <;> rfl)
        (variants_notText (variants_count _ _) k1) k4
      have hpc : ∀ c ∈ paragraphs (textIf l q ++ lost), IsPiece c := by
        intro c hc
        rw [paragraphs_append] at hc
        rcases List.mem_append.1 hc with hc | hc
        · exact textIf_pieces hq c hc
        · exact texts_pieces k5 c hc
      have hpara : paragraphs (rawM ++ textIf (p.line - (p.line - 1)) p.pending) = rawM ++ paragraphs (textIf (p.line - (p.line - 1)) p.pending) := by
        rw [paragraphs_append, textless_paragraphs n1]
      refine ⟨?_, ?_, ?_⟩
      · obtain ⟨o1, ho1⟩ := m1.rule
        obtain ⟨o2, ho2⟩ := m2.rule
        rw [hpara] at ho1
        obtain ⟨oM, hoM⟩ := resettles_prefix ho1
        rw [List.append_assoc, List.append_assoc, ← List.append_assoc, paragraphs_append, paragraphs_node (by intro t h; cases h), hpara]
        by_cases hpe : p.pending = []
        · rw [hpe]
          have : rawM ++ paragraphs (textIf (p.line - (p.line - 1)) []) = rawM := by simp [textIf, paragraphs]
          rw [this]
          refine ⟨_, resettles_pieces hpc (.plain ?_ n1 hoM ho2)⟩
          intro hk
          rcases k6 hk with h | h
          · exact n2 (by simpa using h)
          · exact absurd hpe h
        · have hps := textIf_pieces (l := p.line - (p.line - 1)) k4
          have hpn : paragraphs (textIf (p.line - (p.line - 1)) p.pending) ≠ [] := by
            intro h
            have := (paragraphs_textIf (p.line - (p.line - 1)) p.pending).2
            rw [h] at this
            exact hpe this.symm
          generalize paragraphs (textIf (p.line - (p.line - 1)) p.pending) = ps at hps hpn
          rcases List.eq_nil_or_concat ps with rfl | ⟨left, last, rfl⟩
          · exact absurd rfl hpn
          · rw [List.concat_eq_append] at hps ⊢
            rw [← List.append_assoc rawM]
            exact ⟨_, resettles_pieces hpc (.dollars n1 hoM (fun c hc => hps c (by simp [hc])) (hps last (by simp)) ho2)⟩
      · intro k hk
        rw [List.append_assoc, List.append_assoc, ← List.append_assoc, paragraphs_append, paragraphs_node (by intro t h; cases h)]
        refine without_pieces hpc (.maths (by intro h; cases h.1) (m1.without k ?_) (m2.without k ?_))
        · intro c hc
          obtain ⟨⟨l', v'⟩, hc', rfl⟩ := List.mem_map.1 hc
          rcases List.mem_append.1 hc' with hc' | hc'
          · have h := hk _ (.tail _ (k2 _ hc'))
            exact h
          · unfold textIf2 at hc'
            split at hc'
            · cases hc'
            · simp only [List.mem_singleton, Ast2.Chunk.mk.injEq] at hc'
              obtain ⟨rfl, rfl⟩ := hc'
              intro args; exact ⟨(by intro h; cases h), by intro h; cases h⟩
        · intro c hc
          rcases List.mem_cons.1 hc with rfl | hc
          · intro args; exact ⟨(by intro h; cases h), by intro h; cases h⟩
          · exact hk c (.tail _ (k3 c hc))
      · intro M l' t' he hM ht'
        exfalso
        cases M with
        | cons c M =>
          simp only [List.cons_append, List.cons.injEq] at he
          exact hM c (.head _) _ (by rw [← he.1]; rfl)
        | nil =>
          unfold textIf2 at he
          split at he
          · simp at he
          · simp only [List.nil_append, List.cons.injEq, Ast2.Chunk.mk.injEq, Ast2.ChunkVariant.text.injEq] at he
            rw [← he.1.2] at ht'
            simp at ht'
  | uncountable => intro raw hr; cases hr
  | unfinished => intro raw hr; cases hr
  | @brackets b k l args body inner l' args' cs i o hin _ _ ih1 ih2 =>
    intro raw hr
    cases i with
    | error f => simp [blockOutcome] at hr
    | ok ri =>
      obtain ⟨raw', rfl, rfl⟩ := before_ok hr
      have m1 := ih1 ri rfl
      have m2 := ih2 raw' rfl
      obtain ⟨i1, i2⟩ := inside_none hin
      rw [List.nil_append]
      refine ⟨?_, ?_, ?_⟩
      · obtain ⟨o1, ho1⟩ := m1.rule
        obtain ⟨o2, ho2⟩ := m2.rule
        rw [paragraphs_node (by intro t h; cases h)]
        exact ⟨_, .brackets (m1.without k i1) ho1 ho2⟩
      · intro j hj
        rw [paragraphs_node (by intro t h; cases h)]
        refine .maths ?_ (m1.without j fun c hc => hj c (by simp [i2 c hc])) (m2.without j fun c hc => hj c (by simp [hc]))
        rintro ⟨_, rfl⟩
        exact (hj _ (.head _) args).1 rfl
      · intro M l2 t he hM ht
        rw [← List.cons_append] at he
        obtain ⟨M2, h1, rfl⟩ := split_tail he (by intro t h; cases h)
        obtain ⟨r1, rfl, n1, _⟩ := m1.nodes inner 0 [] (by simp [textIf2]) (fun c hc => hM c (by simp [i2 c hc])) (by simp)
        obtain ⟨r2, rfl, n2, _⟩ := m2.nodes M2 l2 t h1 (fun c hc => hM c (by simp [hc])) ht
        have : paragraphs (r1 ++ textIf 0 []) = r1 := by simp [textIf, textless_paragraphs n1]
        rw [this]
        exact ⟨_, (List.append_assoc _ _ _).symm, .brackets n1 n2, by simp⟩
  | unclosed => intro raw hr; cases hr
  | unexpected => intro raw hr; cases hr
  | @scope b l inner sv cs i o _ _ ih1 ih2 =>
    intro raw hr
    cases i with
    | error f => simp [scopeOutcome] at hr
    | ok ri =>
      obtain ⟨raw', rfl, rfl⟩ := before_ok hr
      have m1 := ih1 ri rfl
      have m2 := ih2 raw' rfl
      refine ⟨?_, ?_, ?_⟩
      · obtain ⟨o1, ho1⟩ := m1.rule
        obtain ⟨o2, ho2⟩ := m2.rule
        rw [paragraphs_node (by intro t h; cases h)]
        exact ⟨_, .scope ho1 ho2⟩
      · intro k hk
        rw [paragraphs_node (by intro t h; cases h)]
        exact .other (by intro m h; cases h) (m2.without k fun c hc => hk c (.tail _ hc))
      · intro M l2 t he hM ht
        rw [← List.nil_append (_ :: cs)] at he
        obtain ⟨M2, h1, rfl⟩ := split_tail he (by intro t h; cases h)
        obtain ⟨r2, rfl, n2, _⟩ := m2.nodes M2 l2 t h1 (fun c hc => hM c (by simp [hc])) ht
        exact ⟨_, (List.append_assoc _ _ _).symm, .scope n2, by simp⟩
  | @command b l label cs o items hl _ _ ih1 ih2 =>
    intro raw hr
    unfold commandOutcome at hr
    cases ha : argOutcome items with
    | error f => simp [ha] at hr
    | ok as =>
      simp only [ha] at hr
      obtain ⟨raw', rfl, rfl⟩ := before_ok hr
      have m2 := ih2 raw' rfl
      refine ⟨?_, ?_, ?_⟩
      · obtain ⟨its, rfl, hits⟩ := arg_items ha fun x hx raw h => (ih1 x hx raw h).rule
        obtain ⟨o2, ho2⟩ := m2.rule
        rw [paragraphs_node (by intro t h; cases h)]
        exact ⟨_, .command hl hits ho2⟩
      · intro k hk
        rw [paragraphs_node (by intro t h; cases h)]
        exact .other (by intro m h; cases h) (m2.without k fun c hc => hk c (.tail _ hc))
      · intro M l2 t he hM ht
        rw [← List.nil_append (_ :: cs)] at he
        obtain ⟨M2, h1, rfl⟩ := split_tail he (by intro t h; cases h)
        obtain ⟨r2, rfl, n2, _⟩ := m2.nodes M2 l2 t h1 (fun c hc => hM c (by simp [hc])) ht
        exact ⟨_, (List.append_assoc _ _ _).symm, .command n2, by simp⟩
  | @environment b l label body pb pe cs i o items _ _ _ ih1 ih3 ih2 =>
    intro raw hr
    unfold environmentOutcome at hr
    cases ha : argOutcome items with
    | error f => simp [ha] at hr
    | ok as =>
      cases i with
      | error f => simp [ha] at hr
      | ok ri =>
        simp only [ha] at hr
        obtain ⟨raw', rfl, rfl⟩ := before_ok hr
        have m1 := ih3 ri rfl
        have m2 := ih2 raw' rfl
        refine ⟨?_, ?_, ?_⟩
        · obtain ⟨its, rfl, hits⟩ := arg_items ha fun x hx raw h => (ih1 x hx raw h).rule
          obtain ⟨o1, ho1⟩ := m1.rule
          obtain ⟨o2, ho2⟩ := m2.rule
          rw [paragraphs_node (by intro t h; cases h)]
          exact ⟨_, .environment hits ho1 ho2⟩
        · intro k hk
          rw [paragraphs_node (by intro t h; cases h)]
          exact .other (by intro m h; cases h) (m2.without k fun c hc => hk c (.tail _ hc))
        · intro M l2 t he hM ht
          rw [← List.nil_append (_ :: cs)] at he
          obtain ⟨M2, h1, rfl⟩ := split_tail he (by intro t h; cases h)
          obtain ⟨r2, rfl, n2, _⟩ := m2.nodes M2 l2 t h1 (fun c hc => hM c (by simp [hc])) ht
          exact ⟨_, (List.append_assoc _ _ _).symm, .environment n2, by simp⟩

end LatexAst.Ast3
