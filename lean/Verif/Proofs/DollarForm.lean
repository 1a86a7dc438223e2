import Verif.Spec.DollarForm
import Verif.Proofs.MathsRule
import Verif.Proofs.Again3c

/-!
# In every dollar formula texts come last
-/

namespace LatexAst.Ast3

theorem wordless_append (a b : List Chunk) : wordless (a ++ b) ↔ wordless a ∧ wordless b := by
  induction a with
  | nil => simp [wordless]
  | cons c a ih => obtain ⟨l, v⟩ := c; simp [wordless, ih, and_assoc]

theorem formed_append (a b : List Chunk) : formed (a ++ b) ↔ formed a ∧ formed b := by
  induction a with
  | nil => simp [formed]
  | cons c a ih => obtain ⟨l, v⟩ := c; simp [formed, ih, and_assoc]

theorem formed_textIf {l t} : formed (textIf l t) := by
  unfold textIf
  split <;> simp [formed, ChunkVariant.formed]

theorem paragraph_cases (c : Chunk) : (¬ Wordy c ∧ paragraphChunk c = [c]) ∨ (Wordy c ∧ ∀ d ∈ paragraphChunk c, Wordy d) := by
  obtain ⟨l, v⟩ := c
  cases v with
  | text t =>
    refine .inr ⟨.inl ⟨t, rfl⟩, ?_⟩
    intro d hd
    rcases paragraphChunk_mem hd with ⟨rfl, h3⟩ | ⟨_, _, _, ⟨l', t', he, _⟩ | ⟨l', b, he, _⟩⟩
    · exact absurd rfl (h3 t)
    · exact .inl ⟨t', by rw [he]; rfl⟩
    · exact .inr ⟨b, by rw [he]; rfl⟩
  | paragraphBreak t =>
    refine .inr ⟨.inr ⟨t, rfl⟩, ?_⟩
    intro d hd
    have : d = .mk l (.paragraphBreak t) := List.mem_singleton.1 hd
    subst this
    exact .inr ⟨t, rfl⟩
  | _ => exact .inl ⟨by simp [Wordy, Chunk.variant], rfl⟩

theorem formed_wordy {cs : List Chunk} (h : ∀ c ∈ cs, Wordy c) : formed cs := by
  induction cs with
  | nil => simp [formed]
  | cons c cs ih =>
    have := ih fun c hc => h c (.tail _ hc)
    obtain ⟨l, v⟩ := c
    rcases h _ (.head _) with ⟨t, ht⟩ | ⟨t, ht⟩ <;> (simp only [Chunk.variant] at ht; subst ht; simp [formed, ChunkVariant.formed, this])

theorem formed_paragraphs {cs : List Chunk} (h : formed cs) : formed (paragraphs cs) := by
  induction cs with
  | nil => exact h
  | cons c cs ih =>
    rw [paragraphs, formed_append]
    have h' : formed [c] ∧ formed cs := (formed_append [c] cs).1 h
    refine ⟨?_, ih h'.2⟩
    rcases paragraph_cases c with ⟨_, h1⟩ | ⟨_, h1⟩
    · rw [h1]; exact h'.1
    · exact formed_wordy h1

theorem wordless_paragraphs {cs : List Chunk} (h : wordless cs) : paragraphs cs = cs := by
  induction cs with
  | nil => rfl
  | cons c cs ih =>
    have h' : wordless [c] ∧ wordless cs := (wordless_append [c] cs).1 h
    rw [paragraphs, ih h'.2]
    rcases paragraph_cases c with ⟨_, h1⟩ | ⟨h0, _⟩
    · rw [h1]; rfl
    · obtain ⟨l, v⟩ := c
      rcases h0 with ⟨t, ht⟩ | ⟨t, ht⟩ <;> (simp only [Chunk.variant] at ht; subst ht; simp [wordless, ChunkVariant.wordless] at h')

theorem paragraphs_split (a b : List Chunk) : paragraphs (a ++ b) = paragraphs a ++ paragraphs b := by
  induction a with
  | nil => rfl
  | cons c a ih => simp [paragraphs, ih]

theorem wordy_paragraphs {cs : List Chunk} (h : ∀ c ∈ cs, Wordy c) : ∀ c ∈ paragraphs cs, Wordy c := by
  induction cs with
  | nil => exact h
  | cons c cs ih =>
    intro d hd
    rw [paragraphs] at hd
    rcases List.mem_append.1 hd with hd | hd
    · rcases paragraph_cases c with ⟨h1, _⟩ | ⟨_, h1⟩
      · exact absurd (h _ (.head _)) h1
      · exact h1 d hd
    · exact ih (fun c hc => h c (.tail _ hc)) d hd

theorem WordsLast.paragraphs {cs} (h : WordsLast cs) : WordsLast (paragraphs cs) := by
  obtain ⟨xs, ys, rfl, h1, h2⟩ := h
  exact ⟨xs, Ast3.paragraphs ys, by rw [paragraphs_split, wordless_paragraphs h1], h1, wordy_paragraphs h2⟩

/-- Texts only at the very end, without dollar signs. -/
def textEnd : List Ast2.Chunk → Prop
  | [] => True
  | .mk _ (.text t) :: r => r = [] ∧ '$' ∉ t
  | _ :: r => textEnd r

theorem textEnd_notText {c r} (h : NotText c) : textEnd (c :: r) ↔ textEnd r := by
  obtain ⟨l, v⟩ := c
  cases v with
  | text t => exact absurd rfl (h t)
  | _ => exact Iff.rfl

theorem textEnd_split {a c r} (hc : NotText c) (h : textEnd (a ++ c :: r)) : (∀ x ∈ a, NotText x) ∧ textEnd r := by
  induction a with
  | nil => exact ⟨nofun, (textEnd_notText hc).1 h⟩
  | cons x a ih =>
    by_cases hx : NotText x
    · obtain ⟨h1, h2⟩ := ih ((textEnd_notText hx).1 h)
      refine ⟨fun y hy => ?_, h2⟩
      rcases List.mem_cons.1 hy with rfl | hy
      · exact hx
      · exact h1 y hy
    · obtain ⟨l, v⟩ := x
      cases v with
      | text t =>
        have h' : a ++ c :: r = [] ∧ '$' ∉ t := h
        simp at h'
      | _ => exact absurd (fun t => by simp [Ast2.Chunk.variant]) hx

theorem textEnd_kept {ks l t} (hk : ∀ k ∈ ks, NotText k) (ht : '$' ∉ t) : textEnd (ks ++ textIf2 l t) := by
  induction ks with
  | nil =>
    unfold textIf2
    split
    · trivial
    · exact ⟨rfl, ht⟩
  | cons k ks ih => exact (textEnd_notText (hk _ (.head _))).2 (ih fun k h => hk k (.tail _ h))

theorem textEnd_countFrom {n cs} (h : textEnd cs) : textEnd (cs.map (countFrom n)) := by
  induction cs with
  | nil => trivial
  | cons c cs ih =>
    obtain ⟨l, v⟩ := c
    cases v with
    | text t => obtain ⟨rfl, h2⟩ := h; exact ⟨rfl, h2⟩
    | _ => exact ih h

theorem toDollar_form {p lost kept p'} (h : ToDollar p lost kept p') :
    (∀ c ∈ kept, NotText c) ∧ ('$' ∉ p.pending → '$' ∉ p'.pending) ∧ formed lost := by
  induction h with
  | here hx => exact ⟨nofun, fun h => by simp [h, hx], by simp [formed]⟩
  | later hx hm _ ih =>
    obtain ⟨i1, i2, i3⟩ := ih
    exact ⟨fun c hc => (List.mem_append.1 hc).elim (hm c) (i1 c), fun _ => i2 (by simp), (formed_append _ _).2 ⟨formed_textIf, i3⟩⟩

theorem kept_some {kept : List Ast2.Chunk} {l t} (hk : ∀ k ∈ kept, NotText k) (h : kept ≠ [] ∨ t ≠ []) :
    ∃ c r, kept ++ textIf2 l t = c :: r ∧ c.variant ≠ .text [] := by
  cases kept with
  | cons k ks => exact ⟨k, _, rfl, hk k (.head _) []⟩
  | nil =>
    have hne : t ≠ [] := by simpa using h
    exact ⟨.mk l (.text t), [], by simp [textIf2, hne], by simpa [Ast2.Chunk.variant] using hne⟩

theorem formula_form {p lost type content p'} (h : Formula p lost type content p') (hp : p.pending = []) :
    textEnd content ∧ formed lost ∧ (type = .inline → ∃ c r, content = c :: r ∧ c.variant ≠ .text []) := by
  cases h with
  | inline h1 hne =>
    obtain ⟨a1, a2, a3⟩ := toDollar_form h1
    exact ⟨textEnd_kept a1 (a2 (by simp [hp])), a3, fun _ => kept_some a1 hne⟩
  | display h1 h2 h3 h4 =>
    obtain ⟨a1, a2, a3⟩ := toDollar_form h1
    obtain ⟨b1, b2, b3⟩ := toDollar_form h3
    obtain ⟨c1, c2, c3⟩ := toDollar_form h4
    refine ⟨textEnd_kept (fun k hk => (List.mem_append.1 hk).elim (b1 k) (c1 k)) (c2 (b2 (by simp [h2]))), ?_, fun h => nomatch h⟩
    simp [formed_append, a3, b3, c3]

theorem inside_sub {k body inner} (h : Inside k body inner) : ∀ c ∈ inner, c ∈ body := by
  induction h with
  | nil => exact nofun
  | other _ _ ih => exact fun c hc => (List.mem_cons.1 hc).elim (fun h => h ▸ .head _) fun h => .tail _ (ih c h)
  | nested _ _ ih1 ih2 =>
    intro c hc
    rcases List.mem_append.1 hc with hc | hc
    · simp [ih1 c hc]
    · simp [ih2 c hc]

/-- What conversion gives for a sequence of chunks. -/
structure Forms (cs : List Ast2.Chunk) (out : List Chunk) : Prop where
  formed : formed out
  wordless : (∀ c ∈ cs, NotText c) → wordless out
  last : textEnd cs → WordsLast out
  some : ∀ c r, cs = c :: r → c.variant ≠ .text [] → ∃ d ∈ out, d.variant ≠ .text []

theorem formed_args {items : List ((Str × Ast2.Scope) × Outcome)} {args} (h : argOutcome items = .ok args)
    (ih : ∀ x ∈ items, ∀ out, x.2 = .ok out → Forms x.1.2.chunks out) : formedArgs args := by
  induction items generalizing args with
  | nil => simp [argOutcome] at h; subst h; simp [formedArgs]
  | cons x r ihr =>
    obtain ⟨⟨p, ⟨inner, sv⟩⟩, o⟩ := x
    cases o with
    | error f => simp [argOutcome] at h
    | ok out =>
      cases ha : argOutcome r with
      | error f => simp [argOutcome, ha] at h
      | ok args' =>
        simp [argOutcome, ha] at h
        subst h
        have h1 := ihr ha fun y hy => ih y (.tail _ hy)
        have h2 := (ih _ (.head _) out rfl).formed
        simp [formedArgs, Scope.formed, formed_paragraphs h2, h1]

theorem WordsLast.cons {l v cs} (hv : v.wordless) (h : WordsLast cs) : WordsLast (.mk l v :: cs) := by
  obtain ⟨xs, ys, rfl, h1, h2⟩ := h
  exact ⟨.mk l v :: xs, ys, rfl, ⟨hv, h1⟩, h2⟩

theorem paragraphs_ne {cs : List Chunk} (h : ∃ c ∈ cs, c.variant ≠ .text []) : paragraphs cs ≠ [] := by
  obtain ⟨c, hc, hne⟩ := h
  induction cs with
  | nil => cases hc
  | cons d cs ih =>
    rw [paragraphs]
    rcases List.mem_cons.1 hc with rfl | hc
    · intro he
      have he := (List.append_eq_nil_iff.1 he).1
      obtain ⟨l, v⟩ := c
      cases v with
      | text t =>
        have := display_paragraphs [.mk l (.text t)]
        simp [paragraphs, he, displayChunks, Chunk.display, ChunkVariant.display] at this
        exact hne (by rw [this]; rfl)
      | _ => cases he
    · intro he
      exact ih hc (List.append_eq_nil_iff.1 he).2

theorem Forms.formula {cs out type} (h : Forms cs out) (he : textEnd cs) (hs : type = .inline → ∃ c r, cs = c :: r ∧ c.variant ≠ .text []) :
    FormulaForm .dollars type (paragraphs out) := by
  have h1 := (h.last he).paragraphs
  cases type with
  | outline => exact h1
  | inline =>
    obtain ⟨c, r, h2, h3⟩ := hs rfl
    exact ⟨h1, paragraphs_ne (h.some c r h2 h3)⟩

theorem Yields.forms {b cs o} (h : Yields b cs o) : ∀ out, o = .ok out → Forms cs out := by
  induction h with
  | nil => rintro _ ⟨⟩; exact ⟨by simp [formed], fun _ => by simp [wordless], fun _ => ⟨[], [], rfl, by simp [wordless], nofun⟩, nofun⟩
  | @text b l t cs o ht hy ih =>
    intro out h
    obtain ⟨o', rfl, rfl⟩ := before_ok h
    have i := ih _ rfl
    refine ⟨(formed_append _ _).2 ⟨formed_textIf, i.formed⟩, fun hn => absurd rfl (hn _ (.head _) t), ?_, ?_⟩
    · rintro ⟨rfl, _⟩
      cases hy
      refine ⟨[], textIf l t, by simp, by simp [wordless], ?_⟩
      intro c hc
      unfold textIf at hc
      split at hc
      · cases hc
      · cases List.mem_singleton.1 hc
        exact .inl ⟨t, rfl⟩
    · intro c r he hne
      cases he
      have hne' : t ≠ [] := fun h => hne (by rw [h]; rfl)
      exact ⟨.mk l (.text t), by simp [textIf, hne'], by simpa [Chunk.variant] using hne'⟩
  | @formula b l q r cs lost type content p i o hq hf _ _ _ ih1 ih2 =>
    intro out h
    cases i with
    | error f => simp [blockOutcome] at h
    | ok i =>
      obtain ⟨o', rfl, rfl⟩ := before_ok h
      obtain ⟨a1, a2, a3⟩ := formula_form hf rfl
      have i1 := ih1 _ rfl
      have i2 := ih2 _ rfl
      have hff : FormulaForm .dollars type (paragraphs i) := i1.formula (textEnd_countFrom a1) (fun ht => by
        obtain ⟨c, r, h1, h2⟩ := a3 ht
        refine ⟨countFrom p.line c, r.map (countFrom p.line), by rw [h1]; rfl, ?_⟩
        cases c; exact h2)
      refine ⟨?_, fun hn => absurd rfl (hn _ (.head _) _), ?_, ?_⟩
      · simp only [formed_append, formed_textIf, a2, formed, ChunkVariant.formed, MathsBlock.formed, true_and, and_true]
        exact ⟨⟨hff, formed_paragraphs i1.formed⟩, i2.formed⟩
      · rintro ⟨_, h2⟩
        simp at h2
      · intro c r he _
        exact ⟨.mk p.line (.mathsBlock (.mk .dollars type (paragraphs i))), by simp, by simp [Chunk.variant]⟩
  | uncountable => intro out h; cases h
  | unfinished => intro out h; cases h
  | @brackets b k l args body inner l' args' cs i o hin _ _ ih1 ih2 =>
    intro out h
    cases i with
    | error f => simp [blockOutcome] at h
    | ok i =>
      obtain ⟨o', rfl, rfl⟩ := before_ok h
      have i1 := ih1 _ rfl
      have i2 := ih2 _ rfl
      have hb : (∀ c ∈ body, NotText c) → (ChunkVariant.mathsBlock (.mk .brackets k (paragraphs i))).wordless := fun hn => by
        have := i1.wordless fun c hc => hn c (inside_sub hin c hc)
        simp only [ChunkVariant.wordless, MathsBlock.wordless]
        rwa [wordless_paragraphs this]
      refine ⟨?_, ?_, ?_, ?_⟩
      · simp only [List.nil_append, List.cons_append, formed, ChunkVariant.formed, MathsBlock.formed, FormulaForm, true_and]
        exact ⟨formed_paragraphs i1.formed, i2.formed⟩
      · intro hn
        exact ⟨hb fun c hc => hn c (by simp [hc]), i2.wordless fun c hc => hn c (by simp [hc])⟩
      · intro he
        have he' := (textEnd_notText (by intro t; simp [Ast2.Chunk.variant])).1 he
        obtain ⟨h1, h2⟩ := textEnd_split (by intro t; simp [Ast2.Chunk.variant]) he'
        exact (i2.last h2).cons (hb h1)
      · intro c r _ _
        exact ⟨.mk l (.mathsBlock (.mk .brackets k (paragraphs i))), by simp, by simp [Chunk.variant]⟩
  | unclosed => intro out h; cases h
  | unexpected => intro out h; cases h
  | @scope b l inner sv cs i o _ _ ih1 ih2 =>
    intro out h
    cases i with
    | error f => simp [scopeOutcome] at h
    | ok i =>
      simp only [scopeOutcome] at h
      obtain ⟨o', rfl, rfl⟩ := before_ok h
      have i1 := ih1 _ rfl
      have i2 := ih2 _ rfl
      refine ⟨?_, ?_, ?_, fun c r _ _ => ⟨_, .head _, by simp [Chunk.variant]⟩⟩
      · simp [formed, ChunkVariant.formed, Scope.formed, formed_paragraphs i1.formed, i2.formed]
      · intro hn
        exact ⟨trivial, i2.wordless fun c hc => hn c (.tail _ hc)⟩
      · intro he
        exact (i2.last ((textEnd_notText (by intro t; simp [Ast2.Chunk.variant])).1 he)).cons trivial
  | @command b l label cs o items hl _ _ ih1 ih2 =>
    intro out h
    cases ha : argOutcome items with
    | error f => simp [commandOutcome, ha] at h
    | ok args =>
      simp only [commandOutcome, ha] at h
      obtain ⟨o', rfl, rfl⟩ := before_ok h
      have i1 := formed_args ha ih1
      have i2 := ih2 _ rfl
      refine ⟨?_, ?_, ?_, fun c r _ _ => ⟨_, .head _, by simp [Chunk.variant]⟩⟩
      · simp [formed, ChunkVariant.formed, Command.formed, i1, i2.formed]
      · intro hn
        exact ⟨trivial, i2.wordless fun c hc => hn c (.tail _ hc)⟩
      · intro he
        exact (i2.last ((textEnd_notText (by intro t; simp [Ast2.Chunk.variant])).1 he)).cons trivial
  | @environment b l label body pb pe cs i o items _ _ _ ih1 ih2 ih3 =>
    intro out h
    cases ha : argOutcome items with
    | error f => simp [environmentOutcome, ha] at h
    | ok args =>
      cases i with
      | error f => simp [environmentOutcome, ha] at h
      | ok i =>
        simp only [environmentOutcome, ha] at h
        obtain ⟨o', rfl, rfl⟩ := before_ok h
        have i1 := formed_args ha ih1
        have i2 := ih2 _ rfl
        have i3 := ih3 _ rfl
        refine ⟨?_, ?_, ?_, fun c r _ _ => ⟨_, .head _, by simp [Chunk.variant]⟩⟩
        · simp [formed, ChunkVariant.formed, Environment.formed, formed_paragraphs i2.formed, i1, i3.formed]
        · intro hn
          exact ⟨trivial, i3.wordless fun c hc => hn c (.tail _ hc)⟩
        · intro he
          exact (i3.last ((textEnd_notText (by intro t; simp [Ast2.Chunk.variant])).1 he)).cons trivial

theorem maths_formed {cs out} (h : mathsFromChunks cs = .ok out) : formed out := by
  obtain ⟨o, h1, h2⟩ := yields_iff.1 h
  cases o with
  | error f => cases h2
  | ok raw =>
    cases h2
    exact formed_paragraphs (h1.forms _ rfl).formed

end LatexAst.Ast3
