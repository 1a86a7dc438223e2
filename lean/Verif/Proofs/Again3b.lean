import Verif.Proofs.Again3a

/-! Going from stage 3 to stage 2 and back gives what `Resettles` says. -/

namespace LatexAst.Ast3
open Spec

/-- What is proved: the unfolded chunks `cs`, numbered in any way, in front of anything that gives `out`, give `out'` in front of `out`. -/
def Resettled (cs out' : List Chunk) : Prop := ∀ ds D X b o out, Unfolds cs ds → D.map Ast2.Chunk.variant = ds.map Ast2.Chunk.variant →
  Yields b (D ++ X) o → (∀ b' o', Yields b' X o' → Gives o' out) → Gives o (out' ++ out)

theorem gives_nil {b o} (h : Yields b [] o) : Gives o [] := by
  rw [yields_unique h .nil]; exact .inr ⟨[], rfl, rfl⟩

theorem Resettled.alone {cs out' ds D b o} (h : Resettled cs out') (hu : Unfolds cs ds) (hv : D.map Ast2.Chunk.variant = ds.map Ast2.Chunk.variant)
    (hy : Yields b D o) : Gives o out' := by
  have := h ds D [] b o [] hu hv (by simpa using hy) fun b' o' h => gives_nil h
  simpa using this

/-- A piece of text in front. -/
theorem gives_piece {c : Chunk} {l b X o out} (hc : IsPiece c) (hy : Yields b (.mk l (.text c.variant.display) :: X) o)
    (hX : ∀ b' o', Yields b' X o' → Gives o' out) : Gives o (c :: out) := by
  obtain ⟨o', ho'⟩ := yields_total b X
  rw [yields_unique hy (.text (piece_no_dollar hc) ho')]
  rcases hX b o' ho' with rfl | ⟨raw, rfl, h⟩
  · exact .inl rfl
  · refine .inr ⟨_, rfl, ?_⟩
    rw [paragraphs_append, noLines_append, piece_paragraphs hc, h, ← noLines_append]
    rfl

/-- Arguments. -/
theorem Resettled.args : ∀ {items : List ((Str × Scope) × List Chunk)} {us : List ((Str × Scope) × List Ast2.Chunk)}
    {ys : List ((Str × Ast2.Scope) × Outcome)}, (∀ x ∈ items, Resettled x.1.2.chunks x.2) → items.map (·.1) = us.map (·.1) →
    (∀ x ∈ us, Unfolds x.1.2.chunks x.2) → withInner2 us = ys.map (·.1) → (∀ x ∈ ys, Yields 0 x.1.2.chunks x.2) →
    argOutcome ys = .error .panic ∨ ∃ args', argOutcome ys = .ok args' ∧ noLinesArgs args' = noLinesArgs (refilled items) := by
  intro items
  induction items with
  | nil =>
    intro us ys _ h1 _ h2 _
    have : us = [] := by simpa using h1.symm
    subst this
    have : ys = [] := by simpa [withInner2] using h2.symm
    subst this
    exact .inr ⟨[], rfl, rfl⟩
  | cons x items ih =>
    obtain ⟨⟨p, ⟨inner, sv⟩⟩, cs⟩ := x
    intro us ys h0 h1 hu h2 hy
    cases us with
    | nil => simp at h1
    | cons u us =>
      obtain ⟨⟨p', sc⟩, ds⟩ := u
      simp only [List.map_cons, List.cons.injEq, Prod.mk.injEq] at h1
      obtain ⟨⟨rfl, rfl⟩, h1⟩ := h1
      cases ys with
      | nil => simp [withInner2] at h2
      | cons y ys =>
        obtain ⟨⟨p2, sc2⟩, o⟩ := y
        simp only [withInner2, List.map_cons, List.cons.injEq, Prod.mk.injEq, Scope.variant] at h2
        obtain ⟨⟨rfl, rfl⟩, h2⟩ := h2
        have g1 := (h0 _ (.head _)).alone (hu _ (.head _)) rfl (hy _ (.head _))
        have g2 := ih (fun x hx => h0 x (.tail _ hx)) h1 (fun x hx => hu x (.tail _ hx)) h2 (fun x hx => hy x (.tail _ hx))
        simp only at g1
        rcases g1 with rfl | ⟨raw, rfl, g1⟩
        · exact .inl rfl
        · rcases g2 with g2 | ⟨args', g2, g3⟩
          · exact .inl (by simp [argOutcome, g2])
          · refine .inr ⟨_, by simp only [argOutcome, g2]; rfl, ?_⟩
            simp only [noLinesArgs, Scope.noLines, refilled, Scope.variant, g3, Ast2.Scope.variant] at g1 ⊢
            rw [g1]

/-- Chunks without brackets of a kind unfold to chunks without its delimiters. -/
theorem resettles_without {cs out'} (h : Resettles cs out') : ∀ {k ds}, Without k cs → Unfolds cs ds → ∀ c ∈ ds, NotOfKind k c := by
  have txt : ∀ {k l t}, NotOfKind k (.mk l (.text t)) := by intro k l t args; exact ⟨(by intro h; cases h), by intro h; cases h⟩
  have dol : ∀ {k j n ds block}, Delimited .dollars j n ds block → (∀ c ∈ ds, NotOfKind k c) → ∀ c ∈ block, NotOfKind k c := by
    intro k j n ds block hb hd c hc
    have ho : ∀ {δ cs ds}, OpensWith δ cs ds → (∀ c ∈ cs, NotOfKind k c) → ∀ c ∈ ds, NotOfKind k c := by
      intro δ cs ds h hd c hc
      cases h with
      | text =>
        rcases List.mem_cons.1 hc with rfl | hc
        · exact txt
        · exact hd c (.tail _ hc)
      | other =>
        rcases List.mem_cons.1 hc with rfl | hc
        · exact txt
        · exact hd c hc
    have hcl : ∀ {δ n cs ds}, ClosesWith δ n cs ds → (∀ c ∈ cs, NotOfKind k c) → ∀ c ∈ ds, NotOfKind k c := by
      intro δ n cs ds h hd c hc
      cases h with
      | text =>
        rcases List.mem_append.1 hc with hc | hc
        · exact hd c (by simp [hc])
        · simp only [List.mem_singleton] at hc; subst hc; exact txt
      | other =>
        rcases List.mem_append.1 hc with hc | hc
        · exact hd c hc
        · simp only [List.mem_singleton] at hc; subst hc; exact txt
    cases hb with
    | emptyDollar => simp only [List.mem_singleton] at hc; subst hc; exact txt
    | emptyDollars => simp only [List.mem_singleton] at hc; subst hc; exact txt
    | dollar _ h1 h2 => exact hcl h2 (ho h1 hd) c hc
    | dollars _ h1 h2 => exact hcl h2 (ho h1 hd) c hc
  have shf : ∀ {k n} {ds : List Ast2.Chunk}, (∀ c ∈ ds, NotOfKind k c) → ∀ c ∈ ds.map (Ast2.Chunk.shift n), NotOfKind k c := by
    intro k n ds hd c hc
    obtain ⟨⟨l, v⟩, hc', rfl⟩ := List.mem_map.1 hc
    have h := hd _ hc'
    exact h
  have pcs : ∀ {k left ds}, (∀ c ∈ left, IsPiece c) → Unfolds left ds → ∀ c ∈ ds, NotOfKind k c := by
    intro k left ds hp hu c hc
    have h1 := unfolds_pieces hp hu
    have : c.variant ∈ left.map (fun c => Ast2.ChunkVariant.text c.variant.display) := by
      rw [← h1]; exact List.mem_map.2 ⟨c, hc, rfl⟩
    obtain ⟨d, _, hd⟩ := List.mem_map.1 this
    intro args
    rw [← hd]
    exact ⟨(by intro h; cases h), by intro h; cases h⟩
  have wapp : ∀ {k a b}, Without k (a ++ b) → Without k a := by
    intro k a
    induction a with
    | nil => intro b _; exact .nil
    | cons c a ih =>
      intro b h
      cases h with
      | other h1 h2 => exact .other h1 (ih h2)
      | maths h1 h2 h3 => exact .maths h1 h2 (ih h3)
  induction h with
  | nil => intro k ds _ hu; cases hu; simp
  | @piece c rest rest' hp _ ih =>
    intro k ds hw hu c' hc'
    obtain ⟨d1, d2, rfl, h1, h2⟩ := unfolds_cons hu
    rcases List.mem_append.1 hc' with hc' | hc'
    · exact pcs (left := [c]) (by simpa using hp) h1 c' hc'
    · cases hp <;> (cases hw with | other _ hw => exact ih hw h2 c' hc')
  | @command l label rest rest' items hl _ _ _ ih =>
    intro k ds hw hu c hc
    generalize items.map (·.1) = args at hw hu
    cases hw with
    | other _ hw =>
      cases hu with
      | command h1 h2 =>
        rcases List.mem_cons.1 hc with rfl | hc
        · intro args
          simp only [Ast2.Chunk.variant]
          refine ⟨fun h => hl ?_, fun h => hl ?_⟩
          · cases h; cases k <;> decide
          · cases h; cases k <;> decide
        · exact ih hw h2 c hc
  | scope _ _ _ ih =>
    intro k ds hw hu c hc
    cases hw with
    | other _ hw =>
      cases hu with
      | scope h1 h2 =>
        rcases List.mem_cons.1 hc with rfl | hc
        · intro args; exact ⟨(by intro h; cases h), by intro h; cases h⟩
        · exact ih hw h2 c hc
  | @environment l label content content' pb pe rest rest' items _ _ _ _ _ ih =>
    intro k ds hw hu c hc
    generalize items.map (·.1) = args at hw hu
    cases hw with
    | other _ hw =>
      cases hu with
      | environment h1 h3 h2 =>
        rcases List.mem_cons.1 hc with rfl | hc
        · intro args; exact ⟨(by intro h; cases h), by intro h; cases h⟩
        · exact ih hw h2 c hc
  | @brackets l j content content' rest rest' _ _ _ ih1 ih2 =>
    intro k ds hw hu c hc
    cases hw with
    | other hw => exact absurd rfl (hw _)
    | maths hw hw1 hw2 =>
      cases hu with
      | maths hl h1 h2 h3 =>
        rcases List.mem_append.1 hc with hc | hc
        · refine shf ?_ c hc
          intro c hc
          have hj : j ≠ k := fun h => hw ⟨rfl, h⟩
          cases h2 with
          | round =>
            simp only [List.mem_cons, List.mem_append, List.not_mem_nil, or_false] at hc
            rcases hc with rfl | hc | rfl
            · intro args; cases k <;> simp_all [Ast2.Chunk.variant, openLabel, closeLabel]
            · exact ih1 hw1 h1 c hc
            · intro args; cases k <;> simp_all [Ast2.Chunk.variant, openLabel, closeLabel]
          | square =>
            simp only [List.mem_cons, List.mem_append, List.not_mem_nil, or_false] at hc
            rcases hc with rfl | hc | rfl
            · intro args; cases k <;> simp_all [Ast2.Chunk.variant, openLabel, closeLabel]
            · exact ih1 hw1 h1 c hc
            · intro args; cases k <;> simp_all [Ast2.Chunk.variant, openLabel, closeLabel]
        · exact ih2 hw2 h3 c hc
  | plain _ _ _ _ ih1 ih2 =>
    intro k ds hw hu c hc
    cases hw with
    | other hw => exact absurd rfl (hw _)
    | maths hw hw1 hw2 =>
      cases hu with
      | maths hl h1 h2 h3 =>
        rcases List.mem_append.1 hc with hc | hc
        · exact shf (dol h2 (ih1 hw1 h1)) c hc
        · exact ih2 hw2 h3 c hc
  | @dollars l j ms ms' left last rest rest' _ _ hp hq _ ih1 ih2 =>
    intro k ds hw hu c hc
    cases hw with
    | other hw => exact absurd rfl (hw _)
    | maths hw hw1 hw2 =>
      cases hu with
      | maths hl h1 h2 h3 =>
        rcases List.mem_append.1 hc with hc | hc
        · refine shf (dol h2 ?_) c hc
          rw [List.append_assoc] at h1 hw1
          obtain ⟨d1, d2, rfl, h4, h5⟩ := unfolds_split h1
          intro c hc
          rcases List.mem_append.1 hc with hc | hc
          · exact ih1 (wapp hw1) h4 c hc
          · refine pcs (left := left ++ [last]) ?_ h5 c hc
            intro c hc
            rcases List.mem_append.1 hc with hc | hc
            · exact hp c hc
            · simp only [List.mem_singleton] at hc; subst hc; exact hq
        · exact ih2 hw2 h3 c hc

/-- A formula in dollar signs. -/
theorem resettled_formula {k ms ms' left Ms L D X b o out} {t : Str} {m l : Nat} (tail : List Chunk) (hms : Resettled ms ms') (hM : Unfolds ms Ms)
    (hm : ∀ c ∈ Ms, NotText c) (ht : '$' ∉ t)
    (hc : ∀ c ∈ left, IsPiece c) (hL : L.map Ast2.Chunk.variant = left.map (fun c => .text c.variant.display))
    (hne : k = .inline → Ms ≠ [] ∨ t ≠ [])
    (hD : D.map Ast2.Chunk.variant = (prependDollars (dollarsOf k) (Ms ++ L ++ [.mk m (.text (t ++ dollarsOf k))])).map Ast2.Chunk.variant)
    (htail : ∀ b' m' o', Yields b' (textIf2 m' t) o' → Gives o' tail)
    (hy : Yields b (D ++ X) o) (hX : ∀ b' o', Yields b' X o' → Gives o' out) :
    Gives o (left ++ .mk l (.mathsBlock (.mk .dollars k (ms' ++ tail))) :: out) := by
  obtain ⟨l0, x, R, Ms', rfl, hM', hF⟩ := found_again hm ht hc hL hne hD
  obtain ⟨lost, m', hf, hl⟩ := hF (l0 + ([] : Str).count '\n') X
  by_cases hcn : Countable m' (Ms' ++ textIf2 m' t)
  · obtain ⟨i, hi⟩ := yields_total 0 ((Ms' ++ textIf2 m' t).map (countFrom m'))
    obtain ⟨o', ho'⟩ := yields_total b (.mk (m' + t.count '\n') (.text []) :: X)
    have hb : '$' ∉ ([] : Str) := by simp
    rw [yields_unique hy (.formula (q := []) hb hf hcn hi ho')]
    have hi2 : Gives i (ms' ++ tail) := by
      rw [List.map_append] at hi
      refine hms Ms _ _ 0 i tail hM ((variants_count _ _).trans hM') hi ?_
      intro b' o' h
      have : (textIf2 m' t).map (countFrom m') = textIf2 (m' - (m' - 1)) t := by
        unfold textIf2; split <;> rfl
      rw [this] at h
      exact htail b' _ o' h
    have ho2 := hX b o' (yields_empty.1 ho')
    rcases hi2 with rfl | ⟨raw, rfl, hi2⟩
    · exact .inl rfl
    · rcases ho2 with rfl | ⟨raw2, rfl, ho2⟩
      · exact .inl rfl
      · refine .inr ⟨_, rfl, ?_⟩
        simp only [textIf, if_pos, List.nil_append, List.append_assoc]
        rw [paragraphs_append, List.singleton_append, paragraphs_other (by intro t h; cases h), noLines_append, noLines_append, hl]
        simp only [noLines, ho2, ChunkVariant.noLines, MathsBlock.noLines, hi2]
  · refine .inl ?_
    exact yields_unique hy (.uncountable (q := []) (by simp) hf hcn)

/-- The rule. -/
theorem Resettles.resettled {cs out'} (h : Resettles cs out') : Resettled cs out' := by
  induction h with
  | nil =>
    intro ds D X b o out hu hv hy hX
    cases hu
    rw [variants_nil hv] at hy
    exact hX b o hy
  | @piece c rest rest' hp _ ih =>
    intro ds D X b o out hu hv hy hX
    obtain ⟨d1, d2, rfl, h1, h2⟩ := unfolds_cons hu
    rw [unfolds_piece hp h1] at hv
    obtain ⟨l, D2, rfl, hv2⟩ := variants_cons hv
    refine gives_piece hp hy ?_
    intro b' o' h
    exact ih d2 D2 X b' o' out h2 hv2 h hX
  | @command l label rest rest' items hl _ _ ih1 ih2 =>
    intro ds D X b o out hu hv hy hX
    generalize hargs : items.map (·.1) = args at hu
    cases hu with
    | @command _ _ _ ds' us h1 h2 =>
      obtain ⟨l', D2, rfl, hv2⟩ := variants_cons hv
      simp only [Ast2.Chunk.variant] at hy
      generalize hin : withInner2 us = args2 at hy
      obtain ⟨ys, rfl, hi⟩ := yield_items (args := args2) fun x _ => yields_total 0 x.2.chunks
      obtain ⟨o', ho'⟩ := yields_total b (D2 ++ X)
      rw [yields_unique hy (.command hl hi ho')]
      have g := ih2 ds' D2 X b o' out h2 hv2 ho' hX
      rcases Resettled.args ih1 hargs h1 hin hi with g1 | ⟨args', g1, g2⟩
      · exact .inl (by simp [commandOutcome, g1])
      · simp only [commandOutcome, g1]
        exact g.cons (by intro t h; cases h) (by simp [Chunk.variant, ChunkVariant.noLines, Command.noLines, g2])
  | @scope l inner inner' sv rest rest' _ _ ih1 ih2 =>
    intro ds D X b o out hu hv hy hX
    cases hu with
    | scope h1 h2 =>
      obtain ⟨l', D2, rfl, hv2⟩ := variants_cons hv
      simp only [Ast2.Chunk.variant] at hy
      obtain ⟨i, hi⟩ := yields_total 0 _
      obtain ⟨o', ho'⟩ := yields_total b (D2 ++ X)
      rw [yields_unique hy (.scope hi ho')]
      have g := ih2 _ D2 X b o' out h2 hv2 ho' hX
      rcases ih1.alone h1 rfl hi with rfl | ⟨raw, rfl, g1⟩
      · exact .inl rfl
      · exact g.cons (by intro t h; cases h) (by simp [Chunk.variant, ChunkVariant.noLines, Scope.noLines, g1])
  | @environment l label content content' pb pe rest rest' items _ _ _ ih1 ih3 ih2 =>
    intro ds D X b o out hu hv hy hX
    generalize hargs : items.map (·.1) = args at hu
    cases hu with
    | @environment _ _ _ _ _ _ _ ds' us h1 h3 h2 =>
      obtain ⟨l', D2, rfl, hv2⟩ := variants_cons hv
      simp only [Ast2.Chunk.variant] at hy
      generalize hin : withInner2 us = args2 at hy
      obtain ⟨ys, rfl, hi⟩ := yield_items (args := args2) fun x _ => yields_total 0 x.2.chunks
      obtain ⟨i, hi'⟩ := yields_total 0 _
      obtain ⟨o', ho'⟩ := yields_total b (D2 ++ X)
      rw [yields_unique hy (.environment hi hi' ho')]
      have g := ih2 ds' D2 X b o' out h2 hv2 ho' hX
      rcases Resettled.args ih1 hargs h1 hin hi with g1 | ⟨args', g1, g2⟩
      · exact .inl (by simp [environmentOutcome, g1])
      · rcases ih3.alone h3 rfl hi' with rfl | ⟨raw, rfl, g3⟩
        · exact .inl (by simp [environmentOutcome, g1])
        · simp only [environmentOutcome, g1]
          exact g.cons (by intro t h; cases h) (by simp [Chunk.variant, ChunkVariant.noLines, Environment.noLines, g2, g3])
  | @brackets l k content content' rest rest' hw hcont _ ih1 ih2 =>
    intro ds D X b o out hu hv hy hX
    cases hu with
    | @maths _ _ _ _ cds block _ ds' hl h1 h2 h3 =>
      have hblock : block.map Ast2.Chunk.variant = .command (.mk (openLabel k) []) :: (cds.map Ast2.Chunk.variant ++ [.command (.mk (closeLabel k) [])]) := by
        cases h2 <;> simp [Ast2.Chunk.variant, openLabel, closeLabel]
      rw [List.map_append, variants_shift, hblock, List.cons_append, List.append_assoc] at hv
      obtain ⟨l1, D1, rfl, hv1⟩ := variants_cons hv
      obtain ⟨D4, D2, rfl, hv4, hv2⟩ := variants_append hv1
      obtain ⟨D5, D3, rfl, hv5, hv3⟩ := variants_append hv2
      obtain ⟨l2, D6, rfl, hv6⟩ := variants_cons hv5
      rw [variants_nil hv6] at hy
      have hno : ∀ c ∈ D4, NotOfKind k c := by
        intro c hc
        have : c.variant ∈ cds.map Ast2.Chunk.variant := by rw [← hv4]; exact List.mem_map.2 ⟨c, hc, rfl⟩
        obtain ⟨d, hd, he⟩ := List.mem_map.1 this
        have := resettles_without hcont hw h1 d hd
        intro args
        rw [← he]
        exact this args
      obtain ⟨i, hi⟩ := yields_total 0 D4
      obtain ⟨o', ho'⟩ := yields_total l1 (D3 ++ X)
      simp only [List.cons_append, List.append_assoc, List.nil_append] at hy
      rw [yields_unique hy (.brackets (notOfKind_inside hno) hi ho')]
      exact Gives.block (ih1.alone h1 hv4 hi) (ih2 _ D3 X l1 o' out h3 hv3 ho' hX)
  | @plain l k ms ms' rest rest' hne ht hms _ ih1 ih2 =>
    intro ds D X b o out hu hv hy hX
    cases hu with
    | @maths _ _ _ _ Ms block _ ds' hl h1 h2 h3 =>
      have hm := unfolds_textless ht h1
      rw [List.map_append, variants_shift, block_plain h2 hm] at hv
      obtain ⟨D1, D2, rfl, hv1, hv2⟩ := variants_append hv
      rw [List.append_assoc] at hy
      have := resettled_formula (left := []) (L := []) (l := l) (t := []) (m := 1) [] ih1 h1 hm (by simp) (by simp) rfl
        (fun hk => .inl fun h => hne hk (textless_nil ht (h ▸ h1))) (by simpa using hv1)
        (fun b' m' o' h => gives_nil (b := b') (by simpa [textIf2] using h)) hy
        (fun b' o' h => ih2 ds' D2 X b' o' out h3 hv2 h hX)
      simpa using this
  | @dollars l k ms ms' left last rest rest' ht hms hp hq _ ih1 ih2 =>
    intro ds D X b o out hu hv hy hX
    cases hu with
    | @maths _ _ _ _ cds block _ ds' hl h1 h2 h3 =>
      obtain ⟨d1, d2, rfl, h4, h5⟩ := unfolds_split h1
      obtain ⟨Ms, L, rfl, h6, h7⟩ := unfolds_split h4
      rw [unfolds_piece hq h5] at h2
      have hm := unfolds_textless ht h6
      rw [List.map_append, variants_shift, block_text h2] at hv
      obtain ⟨D1, D2, rfl, hv1, hv2⟩ := variants_append hv
      rw [List.append_assoc] at hy
      have := resettled_formula (l := l) [last] ih1 h6 hm (piece_no_dollar hq) hp (unfolds_pieces hp h7)
        (fun _ => .inr (piece_ne hq)) hv1
        (fun b' m' o' h => by
          rw [textIf2, if_neg (piece_ne hq)] at h
          exact gives_piece hq h fun b o h => gives_nil h) hy
        (fun b' o' h => ih2 ds' D2 X b' o' out h3 hv2 h hX)
      simpa using this

end LatexAst.Ast3
