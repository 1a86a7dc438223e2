import Verif.Spec.DollarCount
import Verif.Proofs.MathsRule
import Verif.Proofs.Again3c

/-!
# Every dollar sign marks a formula
-/

namespace LatexAst.Ast2

theorem ownDollars_append (a b : List Chunk) : ownDollars (a ++ b) = ownDollars a + ownDollars b := by
  induction a with
  | nil => simp [ownDollars]
  | cons c a ih => obtain ⟨l, v⟩ := c; cases v <;> simp [ownDollars, ih, Nat.add_assoc]

theorem evenWithin_iff (cs : List Chunk) : evenWithin cs ↔ ∀ c ∈ cs, c.variant.evenWithin := by
  induction cs with
  | nil => simp [evenWithin]
  | cons c cs ih => obtain ⟨l, v⟩ := c; simp [evenWithin, ih, Chunk.variant]

theorem ownDollars_notText {ms : List Chunk} (h : ∀ m ∈ ms, Ast3.NotText m) : ownDollars ms = 0 := by
  induction ms with
  | nil => rfl
  | cons m ms ih =>
    obtain ⟨l, v⟩ := m
    cases v with
    | text t => exact absurd rfl (h _ (.head _) t)
    | _ => exact ih fun m hm => h m (.tail _ hm)

theorem evenArgs_iff (args : List (Str × Scope)) : evenArgs args ↔ ∀ x ∈ args, evenLevels x.2.chunks := by
  induction args with
  | nil => simp [evenArgs]
  | cons x r ih => obtain ⟨p, ⟨cs, v⟩⟩ := x; simp [evenArgs, ih, Scope.evenLevels, evenLevels, Scope.chunks]

end LatexAst.Ast2

namespace LatexAst.Ast3

theorem markDollars_append (a b : List Chunk) : markDollars (a ++ b) = markDollars a + markDollars b := by
  induction a with
  | nil => simp [markDollars]
  | cons c a ih => obtain ⟨l, v⟩ := c; simp [markDollars, ih, Nat.add_assoc]

theorem markDollars_textual {cs : List Chunk} (h : ∀ c ∈ cs, ∃ l, (∃ t, c = .mk l (.text t)) ∨ ∃ t, c = .mk l (.paragraphBreak t)) :
    markDollars cs = 0 := by
  induction cs with
  | nil => simp [markDollars]
  | cons c cs ih =>
    have := ih fun c hc => h c (.tail _ hc)
    obtain ⟨l, ⟨t, rfl⟩ | ⟨t, rfl⟩⟩ := h _ (.head _) <;> simp [markDollars, ChunkVariant.markDollars, this]

theorem markDollars_textIf {l t} : markDollars (textIf l t) = 0 := by
  unfold textIf
  split <;> simp [markDollars, ChunkVariant.markDollars]

theorem markDollars_paragraphs (cs : List Chunk) : markDollars (paragraphs cs) = markDollars cs := by
  induction cs with
  | nil => rfl
  | cons c cs ih =>
    have key : markDollars (paragraphChunk c) = markDollars [c] := by
      by_cases ht : ∃ l t, c = .mk l (.text t)
      · obtain ⟨l, t, rfl⟩ := ht
        have hp : ∀ c ∈ paragraphChunk (.mk l (.text t)), ∃ l, (∃ t, c = .mk l (.text t)) ∨ ∃ t, c = .mk l (.paragraphBreak t) := by
          intro c hc
          rcases paragraphChunk_mem hc with ⟨rfl, h3⟩ | ⟨_, _, _, ⟨l', t', he, _⟩ | ⟨l', b, he, _⟩⟩
          · exact absurd rfl (h3 t)
          · exact ⟨l', .inl ⟨t', he⟩⟩
          · exact ⟨l', .inr ⟨b, he⟩⟩
        simp [markDollars_textual hp, markDollars, ChunkVariant.markDollars]
      · obtain ⟨l, v⟩ := c
        have : paragraphChunk (.mk l v) = [.mk l v] := by
          cases v with
          | text t => exact absurd ⟨l, t, rfl⟩ ht
          | _ => rfl
        rw [this]
    rw [paragraphs, markDollars_append, key, ih]
    obtain ⟨l, v⟩ := c
    simp [markDollars]

theorem toDollar_count {p lost kept p'} (h : ToDollar p lost kept p') :
    (p.text.count '$' + Ast2.ownDollars p.rest = 1 + (p'.text.count '$' + Ast2.ownDollars p'.rest)) ∧
    ('$' ∉ p.pending → '$' ∉ p'.pending) ∧ markDollars lost = 0 ∧ Ast2.ownDollars kept = 0 ∧
    (∀ c ∈ p.rest, c.variant.evenWithin ∨ c ∈ kept ∨ c ∈ p'.rest) := by
  induction h with
  | here hx =>
    refine ⟨?_, fun h => by simp [h, hx], by simp [markDollars], rfl, fun c hc => .inr (.inr hc)⟩
    simp [List.count_eq_zero.2 hx]; omega
  | @later l q x ms l' t rest lost kept p hx hm _ ih =>
    obtain ⟨i1, i2, i3, i4, i5⟩ := ih
    refine ⟨?_, fun _ => i2 (by simp), ?_, ?_, ?_⟩
    · simp only [Ast2.ownDollars_append, Ast2.ownDollars_notText hm, Ast2.ownDollars, List.count_eq_zero.2 hx] at i1 ⊢
      omega
    · simp [markDollars_append, markDollars_textIf, i3]
    · simp [Ast2.ownDollars_append, Ast2.ownDollars_notText hm, i4]
    · intro c hc
      rcases List.mem_append.1 hc with hc | hc
      · exact .inr (.inl (by simp [hc]))
      rcases List.mem_cons.1 hc with rfl | hc
      · exact .inl (by simp [Ast2.Chunk.variant, Ast2.ChunkVariant.evenWithin])
      · rcases i5 c hc with h | h | h
        · exact .inl h
        · exact .inr (.inl (by simp [h]))
        · exact .inr (.inr h)

theorem ownDollars_textIf2 {l t} (h : '$' ∉ t) : Ast2.ownDollars (textIf2 l t) = 0 := by
  unfold textIf2
  split
  · rfl
  · simpa [Ast2.ownDollars, List.count_eq_zero] using h

theorem formula_count {p lost type content p'} (h : Formula p lost type content p') (hp : p.pending = []) :
    (1 + (p.text.count '$' + Ast2.ownDollars p.rest) = marksOf .dollars type + (p'.text.count '$' + Ast2.ownDollars p'.rest)) ∧
    markDollars lost = 0 ∧ Ast2.ownDollars content = 0 ∧ (∀ c ∈ p.rest, c.variant.evenWithin ∨ c ∈ content ∨ c ∈ p'.rest) := by
  cases h with
  | inline h1 _ =>
    obtain ⟨a1, a2, a3, a4, a5⟩ := toDollar_count h1
    refine ⟨by simp only [marksOf]; omega, a3, ?_, ?_⟩
    · simp [Ast2.ownDollars_append, a4, ownDollars_textIf2 (a2 (by simp [hp]))]
    · intro c hc
      rcases a5 c hc with h | h | h
      · exact .inl h
      · exact .inr (.inl (by simp [h]))
      · exact .inr (.inr h)
  | display h1 h2 h3 h4 =>
    obtain ⟨a1, a2, a3, a4, a5⟩ := toDollar_count h1
    obtain ⟨b1, b2, b3, b4, b5⟩ := toDollar_count h3
    obtain ⟨c1, c2, c3, c4, c5⟩ := toDollar_count h4
    refine ⟨by simp only [marksOf]; omega, by simp [markDollars_append, a3, b3, c3], ?_, ?_⟩
    · simp [Ast2.ownDollars_append, b4, c4, ownDollars_textIf2 (c2 (b2 (by simp [h2])))]
    · intro c hc
      rcases a5 c hc with h | h | h
      · exact .inl h
      · cases h
      rcases b5 c h with h | h | h
      · exact .inl h
      · exact .inr (.inl (by simp [h]))
      rcases c5 c h with h | h | h
      · exact .inl h
      · exact .inr (.inl (by simp [h]))
      · exact .inr (.inr h)

theorem delimiter_open (k : MathsType) : IsDelimiter (openLabel k) := by cases k <;> decide
theorem delimiter_close (k : MathsType) : IsDelimiter (closeLabel k) := by cases k <;> decide

theorem delimiter_even {l k args} (h : k ∈ [openLabel t, closeLabel t]) : (Ast2.Chunk.mk l (.command (.mk k args))).variant.evenWithin := by
  simp only [List.mem_cons, List.not_mem_nil, or_false] at h
  rcases h with rfl | rfl
  · exact .inl (delimiter_open t)
  · exact .inl (delimiter_close t)

theorem inside_count {k body inner} (h : Inside k body inner) : Ast2.ownDollars body = Ast2.ownDollars inner ∧
    (Ast2.evenWithin inner → Ast2.evenWithin body) := by
  induction h with
  | nil => exact ⟨rfl, id⟩
  | @other c body inner hn _ ih =>
    obtain ⟨l, v⟩ := c
    refine ⟨by cases v <;> simp [Ast2.ownDollars, ih.1], fun h => ?_⟩
    simp only [Ast2.evenWithin] at h ⊢
    exact ⟨h.1, ih.2 h.2⟩
  | nested _ _ ih1 ih2 =>
    refine ⟨by simp [Ast2.ownDollars, Ast2.ownDollars_append, ih1.1, ih2.1], fun h => ?_⟩
    rw [Ast2.evenWithin_iff] at h
    have h1 := ih1.2 ((Ast2.evenWithin_iff _).2 fun c hc => h c (List.mem_append.2 (.inl hc)))
    have h2 := ih2.2 ((Ast2.evenWithin_iff _).2 fun c hc => h c (List.mem_append.2 (.inr hc)))
    rw [Ast2.evenWithin_iff] at h1 h2 ⊢
    intro c hc
    rcases List.mem_cons.1 hc with rfl | hc
    · exact delimiter_even (t := k) (by simp)
    rcases List.mem_append.1 hc with hc | hc
    · exact h1 c hc
    rcases List.mem_cons.1 hc with rfl | hc
    · exact delimiter_even (t := k) (by simp)
    · exact h2 c hc

theorem ownDollars_countFrom (n cs) : Ast2.ownDollars (cs.map (countFrom n)) = Ast2.ownDollars cs := by
  induction cs with
  | nil => rfl
  | cons c cs ih => obtain ⟨l, v⟩ := c; cases v <;> simpa [Ast2.ownDollars, countFrom] using ih

/-- All dollar signs mark formulas, and every level within is even. -/
def Spends (out : List Chunk) (cs : List Ast2.Chunk) : Prop := Ast2.ownDollars cs = markDollars out ∧ Ast2.evenWithin cs

mutual
theorem even_marks : ∀ cs : List Chunk, 2 ∣ markDollars cs
  | [] => by simp [markDollars]
  | .mk _ v :: r => by simp only [markDollars]; exact Nat.dvd_add (even_marksV v) (even_marks r)
theorem even_marksV : ∀ v : ChunkVariant, 2 ∣ v.markDollars
  | .mathsBlock m => by simp only [ChunkVariant.markDollars]; exact even_marksM m
  | .text _ => by simp [ChunkVariant.markDollars]
  | .paragraphBreak _ => by simp [ChunkVariant.markDollars]
  | .command _ => by simp [ChunkVariant.markDollars]
  | .scope _ => by simp [ChunkVariant.markDollars]
  | .environment _ => by simp [ChunkVariant.markDollars]
theorem even_marksM : ∀ m : MathsBlock, 2 ∣ m.markDollars
  | .mk v t cs => by
    have := even_marks cs
    simp only [MathsBlock.markDollars]
    refine Nat.dvd_add ?_ this
    cases v <;> cases t <;> decide
end

theorem Spends.levels {out cs} (h : Spends out cs) : Ast2.evenLevels cs := ⟨h.1 ▸ even_marks out, h.2⟩

theorem spends_args {items : List ((Str × Ast2.Scope) × Outcome)} {args} (h : argOutcome items = .ok args)
    (ih : ∀ x ∈ items, ∀ out, x.2 = .ok out → Spends out x.1.2.chunks) : Ast2.evenArgs (items.map (·.1)) := by
  induction items generalizing args with
  | nil => simp [Ast2.evenArgs]
  | cons x r ihr =>
    obtain ⟨⟨p, ⟨inner, sv⟩⟩, o⟩ := x
    cases o with
    | error f => simp [argOutcome] at h
    | ok out =>
      cases ha : argOutcome r with
      | error f => simp [argOutcome, ha] at h
      | ok args' =>
        have h1 := ihr ha fun y hy => ih y (.tail _ hy)
        have h2 := (ih _ (.head _) out rfl).levels
        simp only [List.map_cons, Ast2.evenArgs, Ast2.Scope.evenLevels]
        exact ⟨h2, h1⟩

theorem Yields.spends {b cs o} (h : Yields b cs o) : ∀ out, o = .ok out → Spends out cs := by
  induction h with
  | nil => rintro _ ⟨⟩; exact ⟨by simp [markDollars, Ast2.ownDollars], by simp [Ast2.evenWithin]⟩
  | text ht _ ih =>
    intro out h
    obtain ⟨o', rfl, rfl⟩ := before_ok h
    obtain ⟨i1, i2⟩ := ih _ rfl
    exact ⟨by simp [Ast2.ownDollars, markDollars_append, markDollars_textIf, List.count_eq_zero.2 ht, i1],
      by simp [Ast2.evenWithin, Ast2.ChunkVariant.evenWithin, i2]⟩
  | @formula b l q r cs lost type content p i o hq hf _ _ _ ih1 ih2 =>
    intro out h
    cases i with
    | error f => simp [blockOutcome] at h
    | ok i =>
      obtain ⟨o', rfl, rfl⟩ := before_ok h
      obtain ⟨a1, a2, a3, a4⟩ := formula_count hf rfl
      obtain ⟨i1, i2⟩ := ih1 _ rfl
      obtain ⟨j1, j2⟩ := ih2 _ rfl
      have hc := ownDollars_countFrom p.line content
      rw [hc, a3] at i1
      constructor
      · simp only [Ast2.ownDollars] at j1
        simp only [Ast2.ownDollars, markDollars_append, markDollars_textIf, markDollars, ChunkVariant.markDollars,
          MathsBlock.markDollars, markDollars_paragraphs, List.count_append, List.count_cons_self, List.count_eq_zero.2 hq, a2]
        simp only at a1
        omega
      · rw [Ast2.evenWithin_iff] at i2 j2 ⊢
        intro c hc
        rcases List.mem_cons.1 hc with rfl | hc
        · simp [Ast2.Chunk.variant, Ast2.ChunkVariant.evenWithin]
        rcases a4 c hc with h | h | h
        · exact h
        · have := i2 _ (List.mem_map.2 ⟨c, h, rfl⟩)
          have hv : (countFrom p.line c).variant = c.variant := by cases c; rfl
          rwa [hv] at this
        · exact j2 c (.tail _ h)
  | uncountable => intro out h; cases h
  | unfinished => intro out h; cases h
  | @brackets b k l args body inner l' args' cs i o hin _ _ ih1 ih2 =>
    intro out h
    cases i with
    | error f => simp [blockOutcome] at h
    | ok i =>
      obtain ⟨o', rfl, rfl⟩ := before_ok h
      obtain ⟨m1, m2⟩ := inside_count hin
      obtain ⟨i1, i2⟩ := ih1 _ rfl
      obtain ⟨j1, j2⟩ := ih2 _ rfl
      constructor
      · simp [Ast2.ownDollars, Ast2.ownDollars_append, markDollars, ChunkVariant.markDollars, MathsBlock.markDollars,
          markDollars_paragraphs, marksOf, m1, i1, j1]
      · have h1 := m2 i2
        rw [Ast2.evenWithin_iff] at h1 j2 ⊢
        intro c hc
        rcases List.mem_cons.1 hc with rfl | hc
        · exact delimiter_even (t := k) (by simp)
        rcases List.mem_append.1 hc with hc | hc
        · exact h1 c hc
        rcases List.mem_cons.1 hc with rfl | hc
        · exact delimiter_even (t := k) (by simp)
        · exact j2 c hc
  | unclosed => intro out h; cases h
  | unexpected => intro out h; cases h
  | @scope b l inner sv cs i o _ _ ih1 ih2 =>
    intro out h
    cases i with
    | error f => simp [scopeOutcome] at h
    | ok i =>
      simp only [scopeOutcome] at h
      obtain ⟨o', rfl, rfl⟩ := before_ok h
      have g1 := (ih1 _ rfl).levels
      obtain ⟨j1, j2⟩ := ih2 _ rfl
      refine ⟨by simp [Ast2.ownDollars, markDollars, ChunkVariant.markDollars, j1], ?_⟩
      simp only [Ast2.evenWithin, Ast2.ChunkVariant.evenWithin, Ast2.Scope.evenLevels]
      exact ⟨g1, j2⟩
  | @command b l label cs o items hl _ _ ih1 ih2 =>
    intro out h
    cases ha : argOutcome items with
    | error f => simp [commandOutcome, ha] at h
    | ok args =>
      simp only [commandOutcome, ha] at h
      obtain ⟨o', rfl, rfl⟩ := before_ok h
      have g1 := spends_args ha ih1
      obtain ⟨j1, j2⟩ := ih2 _ rfl
      refine ⟨by simp [Ast2.ownDollars, markDollars, ChunkVariant.markDollars, j1], ?_⟩
      simp only [Ast2.evenWithin, Ast2.ChunkVariant.evenWithin, Ast2.Command.evenWithin]
      exact ⟨.inr g1, j2⟩
  | @environment b l label body pb pe cs i o items _ _ _ ih1 ih2 ih3 =>
    intro out h
    cases ha : argOutcome items with
    | error f => simp [environmentOutcome, ha] at h
    | ok args =>
      cases i with
      | error f => simp [environmentOutcome, ha] at h
      | ok i =>
        simp only [environmentOutcome, ha] at h
        obtain ⟨o', rfl, rfl⟩ := before_ok h
        have g1 := spends_args ha ih1
        have g2 := (ih2 _ rfl).levels
        obtain ⟨j1, j2⟩ := ih3 _ rfl
        refine ⟨by simp [Ast2.ownDollars, markDollars, ChunkVariant.markDollars, j1], ?_⟩
        simp only [Ast2.evenWithin, Ast2.ChunkVariant.evenWithin, Ast2.Environment.evenWithin]
        exact ⟨⟨g1, g2⟩, j2⟩

theorem maths_spends {cs out} (h : mathsFromChunks cs = .ok out) : Spends out cs := by
  obtain ⟨o, h1, h2⟩ := yields_iff.1 h
  cases o with
  | error f => cases h2
  | ok raw =>
    cases h2
    obtain ⟨h3, h4⟩ := h1.spends _ rfl
    exact ⟨by rw [markDollars_paragraphs, h3], h4⟩

theorem ownDollars_filter (e : List Ast2.Chunk) : Ast2.ownDollars (e.filter fun c => !isBody c) = Ast2.ownDollars e := by
  induction e with
  | nil => rfl
  | cons c e ih =>
    by_cases h : isBody c = true
    · obtain ⟨l, args, content, pb, pe, rfl⟩ := isBody_iff.1 h
      simp [h, ih, Ast2.ownDollars]
    · obtain ⟨l, v⟩ := c
      cases v <;> simp [h, ih, Ast2.ownDollars]

theorem ownDollars_sections (e : List Ast2.Chunk) : Ast2.ownDollars e = Ast2.ownDollars (preambleOf e) + Ast2.ownDollars (trailingOf e) := by
  rw [trailingOf, ownDollars_filter, preambleOf, ← Ast2.ownDollars_append, List.takeWhile_append_dropWhile]

theorem mem_sections {e : List Ast2.Chunk} {c} (hc : c ∈ e) : c ∈ preambleOf e ∨ c ∈ bodiesOf e ∨ c ∈ trailingOf e := by
  by_cases h : isBody c = true
  · exact .inr (.inl (by simp [bodiesOf, hc, h]))
  · rw [← List.takeWhile_append_dropWhile (p := fun c => !isBody c) (l := e)] at hc
    rcases List.mem_append.1 hc with hc | hc
    · exact .inl hc
    · exact .inr (.inr (by simp [trailingOf, hc, h]))

end LatexAst.Ast3
