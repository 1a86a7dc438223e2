import Verif.Proofs.Load3c

/-!
# What converting gives can be recognised
-/

namespace LatexAst.Ast3
open Spec

/-! ### the document at stage 2 has no line numbers -/

/-- The lines of the chunks are 0. -/
def NoNumbers (cs : List Ast2.Chunk) : Prop := ∀ c ∈ cs, c.lineNo = 0

theorem noNumbers_addText {t r} (h : NoNumbers r) : NoNumbers (addText t r) := by
  unfold addText
  split
  · rename_i l t' r
    intro c hc
    rcases List.mem_cons.1 hc with rfl | hc
    · exact h (.mk l (.text t')) (.head _)
    · exact h c (.tail _ hc)
  · split
    · exact h
    · intro c hc
      rcases List.mem_cons.1 hc with rfl | hc
      · rfl
      · exact h c hc

theorem noNumbers_cons {v r} (h : NoNumbers r) : NoNumbers (.mk 0 v :: r) := by
  intro c hc
  rcases List.mem_cons.1 hc with rfl | hc
  · rfl
  · exact h c hc

mutual
theorem ChunkVariant.noNumbers_spell : ∀ (v : ChunkVariant) (tail : List Ast2.Chunk), NoNumbers tail → NoNumbers (v.spell tail)
  | .text t, tail, h => by simp only [ChunkVariant.spell]; exact noNumbers_addText h
  | .paragraphBreak t, tail, h => by simp only [ChunkVariant.spell]; exact noNumbers_addText h
  | .mathsBlock m, tail, h => by simp only [ChunkVariant.spell]; exact m.noNumbers_spell tail h
  | .command c, tail, h => by simp only [ChunkVariant.spell]; exact noNumbers_cons h
  | .scope s, tail, h => by simp only [ChunkVariant.spell]; exact noNumbers_cons h
  | .environment e, tail, h => by simp only [ChunkVariant.spell]; exact noNumbers_cons h
theorem MathsBlock.noNumbers_spell : ∀ (m : MathsBlock) (tail : List Ast2.Chunk), NoNumbers tail → NoNumbers (m.spell tail)
  | .mk .dollars t content, tail, h => by
    simp only [MathsBlock.spell]
    exact noNumbers_addText (noNumbers_spellOnto content _ (noNumbers_addText h))
  | .mk .brackets t content, tail, h => by
    simp only [MathsBlock.spell]
    exact noNumbers_cons (noNumbers_spellOnto content _ (noNumbers_cons h))
theorem noNumbers_spellOnto : ∀ (cs : List Chunk) (tail : List Ast2.Chunk), NoNumbers tail → NoNumbers (spellOnto cs tail)
  | [], tail, h => by simpa only [spellOnto] using h
  | .mk _ v :: cs, tail, h => by simp only [spellOnto]; exact v.noNumbers_spell _ (noNumbers_spellOnto cs tail h)
end

theorem noNumbers_spelled (cs : List Chunk) : NoNumbers (spelled cs) := noNumbers_spellOnto cs [] (by simp [NoNumbers])

/-- The chunks are divided into nodes and a text as their atoms are. -/
theorem neat_nodes_text {ds : List Ast2.Chunk} {ms : List Ast2.Atom} {t : Str} (hn : Ast2.NeatSeq ds) (h0 : NoNumbers ds)
    (hm : ∀ m ∈ ms, ¬ m.IsChar) (he : Ast2.atoms ds = ms ++ t.map .char) :
    ∃ kept, ds = kept ++ textIf2 0 t ∧ ∀ m ∈ kept, NotText m := by
  obtain ⟨d₁, d₂, rfl, h1, h2, h3⟩ := Ast2.split_nodes hm hn he
  refine ⟨d₁, ?_, h2⟩
  congr 1
  have hn2 := (Ast2.neat_append hn).2
  cases t with
  | nil =>
    simp only [textIf2, if_true]
    cases d₂ with
    | nil => rfl
    | cons c d₂ =>
      obtain ⟨l, v⟩ := c
      have hcases : (∃ t, v = .text t) ∨ ∀ t, v ≠ .text t := by
        cases v with
        | text t => exact .inl ⟨t, rfl⟩
        | _ => exact .inr (by intro t h; cases h)
      rcases hcases with ⟨t, rfl⟩ | hv
      · rw [Ast2.atoms_cons_text] at h3
        simp at h3
        exact absurd h3.1 hn2.1
      · obtain ⟨a, h4, _⟩ := Ast2.node_atoms hv
        simp [Ast2.atoms, h4] at h3
  | cons x t =>
    obtain ⟨l, u, r, rfl, h4, h5, h6⟩ := Ast2.neat_text_first hn2 h3
    have hl : l = 0 := h0 _ (List.mem_append_right _ (.head _))
    subst hl
    rcases Ast2.first_atom h4 h5 with rfl | ⟨_, _, _, a, _, _, _, h7, h8⟩
    · have h9 : u = x :: t := by
        simp only [Ast2.atoms, List.append_nil] at h6
        have := congrArg Ast2.printAtoms h6
        rw [Ast2.printAtoms_chars, ← List.map_cons, Ast2.printAtoms_chars] at this
        exact this
      subst h9
      simp [textIf2]
    · exfalso
      have : a ∈ (x :: t).map Ast2.Atom.char := by rw [List.map_cons, ← h6, h8]; simp
      obtain ⟨c, _, rfl⟩ := List.mem_map.1 this
      exact h7 trivial

/-- A text, maybe empty, before chunks that do not begin with one. -/
def Near (ds : List Ast2.Chunk) : Prop := Ast2.NeatSeq ds ∨ ∃ l r, ds = .mk l (.text []) :: r ∧ Ast2.NeatSeq r ∧ ¬ Ast2.StartsText r

theorem Near.text {l t cs} (h : Near (.mk l (.text t) :: cs)) : Ast2.NeatSeq cs ∧ ¬ Ast2.StartsText cs := by
  rcases h with h | ⟨l, r, h, h1, h2⟩
  · exact ⟨h.2.1, h.2.2 ⟨t, rfl⟩⟩
  · obtain ⟨_, rfl⟩ := List.cons.inj h
    exact ⟨h1, h2⟩

theorem near_text {l t cs} (h1 : Ast2.NeatSeq cs) (h2 : ¬ Ast2.StartsText cs) : Near (.mk l (.text t) :: cs) := by
  by_cases ht : t = []
  · subst ht; exact .inr ⟨l, cs, rfl, h1, h2⟩
  · exact .inl ⟨ht, h1, fun _ => h2⟩

theorem Near.node {l v cs} (h : Near (.mk l v :: cs)) (hv : ∀ t, v ≠ .text t) : v.Neat ∧ Ast2.NeatSeq cs := by
  rcases h with h | ⟨l, r, h, h1, h2⟩
  · exact ⟨h.1, h.2.1⟩
  · simp at h; exact absurd h.1.2 (hv [])

theorem toDollar_neat {p lost kept p'} (h : ToDollar p lost kept p') (hn : Ast2.NeatSeq p.rest) (hs : ¬ Ast2.StartsText p.rest) :
    Ast2.NeatSeq kept ∧ Ast2.NeatSeq p'.rest ∧ ¬ Ast2.StartsText p'.rest := by
  induction h with
  | here => exact ⟨by simp [Ast2.NeatSeq], hn, hs⟩
  | @later l q x ms l' t rest lost kept p hx hm hd ih =>
    obtain ⟨h1, h2⟩ := Ast2.neat_append hn
    obtain ⟨h3, h4, h5⟩ := ih h2.2.1 (h2.2.2 ⟨t, rfl⟩)
    refine ⟨?_, h4, h5⟩
    clear hn hs ih hd
    induction ms with
    | nil => exact h3
    | cons m ms ihm =>
      obtain ⟨l, v⟩ := m
      refine ⟨h1.1, ihm (fun m hm' => hm m (.tail _ hm')) h1.2.1, ?_⟩
      rintro ⟨t, rfl⟩
      exact absurd rfl (hm _ (.head _) t)

/-- The chunks begin with a text that begins with something else than a dollar sign. -/
def BeginsPlain : List Ast2.Chunk → Prop
  | .mk _ (.text (c :: _)) :: _ => c ≠ '$'
  | _ => False

theorem paragraphs_textIf (l : Nat) (t : Str) : Cut false ((paragraphs (textIf l t)).map Chunk.variant) ∧
    displayChunks (paragraphs (textIf l t)) = t := by
  refine ⟨?_, by rw [display_paragraphs, display_textIf]⟩
  unfold textIf
  split
  · exact .nil
  · exact C32_cut l t

theorem not_begins {l v cs} (h : ¬ TextLike v) : ¬ BeginsWithText (.mk l v :: cs) := by
  rintro ⟨l', v', r, he, hv⟩
  obtain ⟨he, _⟩ := List.cons.inj he
  simp only [Chunk.mk.injEq] at he
  rw [← he.2] at hv
  exact h hv

theorem Recognisable.text {l : Nat} {t : Str} {rest} (ht : '$' ∉ t) (hb : ¬ BeginsWithText rest) (h : Recognisable rest) :
    Recognisable (paragraphs (textIf l t) ++ rest) ∧ (t = [] → ¬ BeginsWithText (paragraphs (textIf l t) ++ rest)) := by
  obtain ⟨h1, h2⟩ := paragraphs_textIf l t
  refine ⟨.run h1 (by rwa [h2]) hb h, ?_⟩
  rintro rfl
  simpa [textIf, show paragraphs [] = [] from rfl] using hb

theorem recognisable_dollars {content : List Chunk} {kept : List Ast2.Chunk} {t : Str} {l k rest} (he : atoms content = Ast2.atoms kept ++ t.map .char)
    (hk : ∀ m ∈ kept, NotText m) (ht : '$' ∉ t) (hne : k = .inline → kept ≠ [] ∨ t ≠ []) (h1 : Recognisable content) (h2 : Recognisable rest) :
    Recognisable (.mk l (.mathsBlock (.mk .dollars k content)) :: rest) := by
  obtain ⟨ms, h3, h4⟩ := neat_nodes_text (neat_spelled content) (noNumbers_spelled content) (Ast2.atoms_nodes hk) (by rw [atoms_spelled, he])
  refine .dollars h3 h4 ht ?_ h1 h2
  intro hi hc
  subst hc
  simp only [atoms] at he
  obtain ⟨h5, h6⟩ := List.append_eq_nil_iff.1 he.symm
  rcases hne hi with h | h
  · exact h (Ast2.nodes_nil hk h5)
  · exact h (by simpa using h6)

theorem recognisable_args {items : List ((Str × Ast2.Scope) × Outcome)} {args} (h : argOutcome items = .ok args)
    (ih : ∀ x ∈ items, ∀ out, x.2 = .ok out → Recognisable (paragraphs out)) : ∀ x ∈ args, Recognisable x.2.chunks := by
  induction items generalizing args with
  | nil => simp [argOutcome] at h; subst h; simp
  | cons x r ihr =>
    obtain ⟨⟨p, ⟨inner, sv⟩⟩, o⟩ := x
    cases o with
    | error f => simp [argOutcome] at h
    | ok out =>
      cases ha : argOutcome r with
      | error f => simp [argOutcome, ha] at h
      | ok args' =>
        simp [argOutcome, ha] at h
        subst h
        intro y hy
        rcases List.mem_cons.1 hy with rfl | hy
        · exact ih _ (.head _) out rfl
        · exact ihr ha (fun y hy => ih y (.tail _ hy)) y hy

theorem KeepsText.recognisable {cs} (h : KeepsText cs) : ∀ b out, Near cs → Yields b cs (.ok out) →
    Recognisable (paragraphs out) ∧ (¬ BeginsPlain cs → ¬ BeginsWithText (paragraphs out)) := by
  induction h with
  | nil =>
    intro b out _ h
    have := yields_unique h .nil
    simp at this
    subst this
    exact ⟨.nil, fun _ ⟨_, _, _, h, _⟩ => by cases h⟩
  | @text l t cs ht _ ih =>
    intro b out hn h
    obtain ⟨o, ho⟩ := yields_total b cs
    have := yields_unique h (.text ht ho)
    cases o with
    | error f => simp [before] at this
    | ok o =>
      simp only [before, Except.ok.injEq] at this
      subst this
      obtain ⟨h1, h2⟩ := hn.text
      obtain ⟨h3, h4⟩ := ih b o (.inl h1) ho
      have h5 := h4 (by
        intro h5; apply h2
        cases cs with
        | nil => exact h5
        | cons c cs => obtain ⟨l, v⟩ := c; cases v <;> simp_all [BeginsPlain, Ast2.StartsText])
      rw [paragraphs_append]
      obtain ⟨h6, h7⟩ := Recognisable.text (l := l) ht h5 h3
      refine ⟨h6, fun hb => h7 ?_⟩
      cases t with
      | nil => rfl
      | cons c t =>
        exfalso; apply hb
        simp only [BeginsPlain]
        rintro rfl
        simp at ht
  | @inline l q r cs kept p hq hd hk hkc _ ih1 ih2 =>
    intro b out hn h
    by_cases hc : Countable p.line (kept ++ textIf2 p.line p.pending)
    · obtain ⟨i, hi⟩ := yields_total 0 ((kept ++ textIf2 p.line p.pending).map (countFrom p.line))
      obtain ⟨o, ho⟩ := yields_total b (.mk (p.line + p.pending.count '\n') (.text p.text) :: p.rest)
      have := yields_unique h (.formula hq (.inline hd hk) hc hi ho)
      cases i with
      | error f => simp [blockOutcome] at this
      | ok i =>
        cases o with
        | error f => simp [blockOutcome, before] at this
        | ok o =>
          simp only [blockOutcome, before, Except.ok.injEq] at this
          subst this
          obtain ⟨h1, h2⟩ := hn.text
          obtain ⟨h3, h4, h5⟩ := toDollar_neat hd h1 h2
          have h6 := toDollar_kept hd
          have h7 := (ih1 0 i (.inl (Ast2.neat_countFrom (Ast2.neat_content h3 h6))) hi).1
          have h8 := (ih2 b o (near_text h4 h5) ho).1
          have h9 := hkc.atoms 0 i hi
          rw [Ast2.atoms_countFrom, Ast2.atoms_append, atoms_textIf2] at h9
          have h10 := recognisable_dollars (l := p.line) (k := .inline) (content := paragraphs i) (kept := kept) (t := p.pending)
            (by rw [atoms_paragraphs, h9]) h6 (toDollar_lost hd (by simp)).1 (fun _ => hk) h7 h8
          have h11 := Recognisable.text (l := l) hq (not_begins (by rintro (⟨_, h⟩ | ⟨_, h⟩) <;> cases h)) h10
          simp only [List.append_nil, List.append_assoc, List.cons_append, List.nil_append, paragraphs_append] at h11 ⊢
          rw [paragraphs_other (by intro t h; cases h)]
          refine ⟨h11.1, fun hb => h11.2 ?_⟩
          cases q with
          | nil => rfl
          | cons c t => exfalso; apply hb; simp only [List.cons_append, BeginsPlain]; rintro rfl; simp at hq
    · cases yields_unique h (.uncountable hq (.inline hd hk) hc)
  | @display l q r cs p₁ kept p₂ p₃ hq hd1 hp1 hd2 hd3 hp3 hkc _ ih1 ih2 =>
    intro b out hn h
    have hf : Formula ⟨l + q.count '\n', [], r, cs⟩ [] .outline (kept ++ textIf2 p₃.line p₃.pending) p₃ := by
      simpa using Formula.display hd1 hp1 hd2 hd3
    by_cases hc : Countable p₃.line (kept ++ textIf2 p₃.line p₃.pending)
    · obtain ⟨i, hi⟩ := yields_total 0 ((kept ++ textIf2 p₃.line p₃.pending).map (countFrom p₃.line))
      obtain ⟨o, ho⟩ := yields_total b (.mk (p₃.line + p₃.pending.count '\n') (.text p₃.text) :: p₃.rest)
      have := yields_unique h (.formula hq hf hc hi ho)
      cases i with
      | error f => simp [blockOutcome] at this
      | ok i =>
        cases o with
        | error f => simp [blockOutcome, before] at this
        | ok o =>
          simp only [blockOutcome, before, Except.ok.injEq] at this
          subst this
          obtain ⟨h1, h2⟩ := hn.text
          obtain ⟨_, g1, g2⟩ := toDollar_neat hd1 h1 h2
          obtain ⟨h3, g3, g4⟩ := toDollar_neat hd2 g1 g2
          obtain ⟨_, h4, h5⟩ := toDollar_neat hd3 g3 g4
          have h6 := toDollar_kept hd2
          have h7 := (ih1 0 i (.inl (Ast2.neat_countFrom (Ast2.neat_content h3 h6))) hi).1
          have h8 := (ih2 b o (near_text h4 h5) ho).1
          have h9 := hkc.atoms 0 i hi
          rw [Ast2.atoms_countFrom, Ast2.atoms_append, atoms_textIf2] at h9
          have h10 := recognisable_dollars (l := p₃.line) (k := .outline) (content := paragraphs i) (kept := kept) (t := p₃.pending)
            (by rw [atoms_paragraphs, h9]) h6 (by rw [hp3]; exact (toDollar_lost hd2 (by simp [hp1])).1) (by intro h; cases h) h7 h8
          have h11 := Recognisable.text (l := l) hq (not_begins (by rintro (⟨_, h⟩ | ⟨_, h⟩) <;> cases h)) h10
          simp only [List.append_nil, List.append_assoc, List.cons_append, List.nil_append, paragraphs_append] at h11 ⊢
          rw [paragraphs_other (by intro t h; cases h)]
          refine ⟨h11.1, fun hb => h11.2 ?_⟩
          cases q with
          | nil => rfl
          | cons c t => exfalso; apply hb; simp only [List.cons_append, BeginsPlain]; rintro rfl; simp at hq
    · cases yields_unique h (.uncountable hq hf hc)
  | @brackets k l body l' cs hb hkb _ ih1 ih2 =>
    intro b out hn h
    obtain ⟨i, hi⟩ := yields_total 0 body
    obtain ⟨o, ho⟩ := yields_total l cs
    have := yields_unique h (.brackets (notOfKind_inside hb) hi ho)
    cases i with
    | error f => simp [blockOutcome] at this
    | ok i =>
      cases o with
      | error f => simp [blockOutcome, before] at this
      | ok o =>
        simp only [blockOutcome, before, Except.ok.injEq] at this
        subst this
        obtain ⟨h1, h2⟩ := Ast2.neat_append (hn.node (by intro t h; cases h)).2
        have h3 := (ih1 0 i (.inl h1) hi).1
        have h4 := (ih2 l o (.inl h2.2.1) ho).1
        simp only [List.nil_append, List.cons_append]
        rw [paragraphs_other (by intro t h; cases h)]
        refine ⟨.brackets ?_ h3 h4, fun _ => not_begins (by rintro (⟨_, h⟩ | ⟨_, h⟩) <;> cases h)⟩
        rw [Ast2.noDelimiter_atoms, atoms_spelled, atoms_paragraphs, hkb.atoms 0 i hi, ← Ast2.noDelimiter_atoms]
        exact hb
  | @scope l inner sv cs _ _ ih1 ih2 =>
    intro b out hn h
    obtain ⟨i, hi⟩ := yields_total 0 inner
    obtain ⟨o, ho⟩ := yields_total b cs
    have := yields_unique h (.scope hi ho)
    cases i with
    | error f => simp [scopeOutcome] at this
    | ok i =>
      cases o with
      | error f => simp [scopeOutcome, before] at this
      | ok o =>
        simp only [scopeOutcome, before, Except.ok.injEq] at this
        subst this
        obtain ⟨h1, h2⟩ := hn.node (by intro t h; cases h)
        have h3 := (ih1 0 i (.inl h1) hi).1
        have h4 := (ih2 b o (.inl h2) ho).1
        simp only [List.nil_append, List.cons_append]
        rw [paragraphs_other (by intro t h; cases h)]
        exact ⟨.scope h3 h4, fun _ => not_begins (by rintro (⟨_, h⟩ | ⟨_, h⟩) <;> cases h)⟩
  | @command l label args cs hd _ _ ih1 ih2 =>
    intro b out hn h
    obtain ⟨items, rfl, hi⟩ := yield_items (args := args) fun x _ => yields_total 0 x.2.chunks
    obtain ⟨o, ho⟩ := yields_total b cs
    have := yields_unique h (.command hd hi ho)
    cases ha : argOutcome items with
    | error f => simp [commandOutcome, ha] at this
    | ok args =>
      cases o with
      | error f => simp [commandOutcome, ha, before] at this
      | ok o =>
        simp only [commandOutcome, ha, before, Except.ok.injEq] at this
        subst this
        obtain ⟨h1, h2⟩ := hn.node (by intro t h; cases h)
        have h1 := (Ast2.neatArgs_iff _).1 h1
        have h3 := recognisable_args ha fun x hx out ho =>
          (ih1 x.1 (List.mem_map.2 ⟨x, hx, rfl⟩) 0 out (.inl (h1 x.1 (List.mem_map.2 ⟨x, hx, rfl⟩))) (ho ▸ hi x hx)).1
        have h4 := (ih2 b o (.inl h2) ho).1
        simp only [List.nil_append, List.cons_append]
        rw [paragraphs_other (by intro t h; cases h)]
        exact ⟨.command hd h3 h4, fun _ => not_begins (by rintro (⟨_, h⟩ | ⟨_, h⟩) <;> cases h)⟩
  | @environment l label args body pb pe cs _ _ _ ih1 ih2 ih3 =>
    intro b out hn h
    obtain ⟨items, rfl, hi⟩ := yield_items (args := args) fun x _ => yields_total 0 x.2.chunks
    obtain ⟨i, hi'⟩ := yields_total 0 body
    obtain ⟨o, ho⟩ := yields_total b cs
    have := yields_unique h (.environment hi hi' ho)
    cases ha : argOutcome items with
    | error f => simp [environmentOutcome, ha] at this
    | ok args =>
      cases i with
      | error f => simp [environmentOutcome, ha] at this
      | ok i =>
        cases o with
        | error f => simp [environmentOutcome, ha, before] at this
        | ok o =>
          simp only [environmentOutcome, ha, before, Except.ok.injEq] at this
          subst this
          obtain ⟨h1, h2⟩ := hn.node (by intro t h; cases h)
          have h1' := (Ast2.neatArgs_iff _).1 h1.1
          have h3 := recognisable_args ha fun x hx out ho =>
            (ih1 x.1 (List.mem_map.2 ⟨x, hx, rfl⟩) 0 out (.inl (h1' x.1 (List.mem_map.2 ⟨x, hx, rfl⟩))) (ho ▸ hi x hx)).1
          have h4 := (ih2 0 i (.inl h1.2) hi').1
          have h5 := (ih3 b o (.inl h2) ho).1
          simp only [List.nil_append, List.cons_append]
          rw [paragraphs_other (by intro t h; cases h)]
          exact ⟨.environment h3 h4 h5, fun _ => not_begins (by rintro (⟨_, h⟩ | ⟨_, h⟩) <;> cases h)⟩

/-- A neat sequence, converted without loss, can be recognised. -/
theorem recognisable_maths {cs out} (h : mathsFromChunks cs = .ok out) (hk : KeepsText cs) (hn : Ast2.NeatSeq cs) : Recognisable out := by
  obtain ⟨o, ho, he⟩ := yields_iff.1 h
  cases o with
  | error f => simp [inParagraphs] at he
  | ok o =>
    simp only [inParagraphs, Except.ok.injEq] at he
    subst he
    exact (hk.recognisable 0 o (.inl hn) ho).1

/-- A sequence that can be recognised is found by converting any neat sequence with its atoms, unless that panics. -/
theorem Recognisable.maths {out ds} (h : Recognisable out) (hn : Ast2.NeatSeq ds) (he : Ast2.atoms ds = atoms out) :
    mathsFromChunks ds = .error .panic ∨ ∃ out', mathsFromChunks ds = .ok out' ∧ noLines out' = noLines out := by
  obtain ⟨o, ho⟩ := yields_total 0 ds
  have h1 := yields_iff.2 ⟨o, ho, rfl⟩
  rcases h.found.seq hn he ho with rfl | ⟨raw, rfl, h2⟩
  · exact .inl h1
  · exact .inr ⟨_, h1, h2⟩

end LatexAst.Ast3
