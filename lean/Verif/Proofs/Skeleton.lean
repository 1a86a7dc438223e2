import Verif.Spec.Skeleton
import Verif.Proofs.MathsRule
import Verif.Proofs.Again3c

/-!
# Stage 3 keeps the texts and the nodes of every level in order
-/

namespace LatexAst.Spec
theorem noDollars_append (a b : Str) : noDollars (a ++ b) = noDollars a ++ noDollars b := by simp [noDollars]
theorem noDollars_dollar (a : Str) : noDollars ('$' :: a) = noDollars a := by simp [noDollars]
theorem noDollars_nil : noDollars [] = [] := rfl
end LatexAst.Spec

namespace LatexAst.Ast2
open Spec

theorem plain_append (a b : List Chunk) : plain (a ++ b) = plain a ++ plain b := by
  induction a with
  | nil => rfl
  | cons c a ih => obtain ⟨l, v⟩ := c; cases v <;> simp [plain, ih]

theorem outline_append (a b : List Chunk) : outline (a ++ b) = outline a ++ outline b := by
  induction a with
  | nil => simp [outline]
  | cons c a ih => obtain ⟨l, v⟩ := c; simp [outline, ih]

theorem plain_variants {a b : List Chunk} (h : a.map Chunk.variant = b.map Chunk.variant) : plain a = plain b := by
  induction a generalizing b with
  | nil => cases b with
    | nil => rfl
    | cons => cases h
  | cons c a ih =>
    cases b with
    | nil => cases h
    | cons d b =>
      obtain ⟨l, v⟩ := c
      obtain ⟨m, w⟩ := d
      simp only [List.map_cons, List.cons.injEq, Chunk.variant] at h
      obtain ⟨rfl, h⟩ := h
      have := ih h
      cases v <;> simp [plain, this]

theorem outline_variants {a b : List Chunk} (h : a.map Chunk.variant = b.map Chunk.variant) : outline a = outline b := by
  induction a generalizing b with
  | nil => cases b with
    | nil => rfl
    | cons => cases h
  | cons c a ih =>
    cases b with
    | nil => cases h
    | cons d b =>
      obtain ⟨l, v⟩ := c
      obtain ⟨m, w⟩ := d
      simp only [List.map_cons, List.cons.injEq, Chunk.variant] at h
      obtain ⟨rfl, h⟩ := h
      simp [outline, ih h]

end LatexAst.Ast2

namespace LatexAst.Ast3
open Spec

theorem plain_append (a b : List Chunk) : plain (a ++ b) = plain a ++ plain b := by
  induction a with
  | nil => simp [plain]
  | cons c a ih => obtain ⟨l, v⟩ := c; simp [plain, ih]

theorem outline_append (a b : List Chunk) : outline (a ++ b) = outline a ++ outline b := by
  induction a with
  | nil => simp [outline]
  | cons c a ih => obtain ⟨l, v⟩ := c; simp [outline, ih]

theorem textual {cs : List Chunk} (h : ∀ c ∈ cs, ∃ l, (∃ t, c = .mk l (.text t)) ∨ ∃ t, c = .mk l (.paragraphBreak t)) :
    plain cs = noDollars (displayChunks cs) ∧ outline cs = [] := by
  induction cs with
  | nil => exact ⟨by simp [plain, displayChunks, noDollars], by simp [outline]⟩
  | cons c cs ih =>
    obtain ⟨i1, i2⟩ := ih fun c hc => h c (.tail _ hc)
    obtain ⟨l, ⟨t, rfl⟩ | ⟨t, rfl⟩⟩ := h _ (.head _) <;>
    exact ⟨by simp [plain, ChunkVariant.plain, displayChunks, Chunk.display, ChunkVariant.display, noDollars_append, i1],
      by simp [outline, ChunkVariant.outline, i2]⟩

theorem paragraphs_skeleton (cs : List Chunk) : plain (paragraphs cs) = plain cs ∧ outline (paragraphs cs) = outline cs := by
  induction cs with
  | nil => exact ⟨rfl, rfl⟩
  | cons c cs ih =>
    have key : plain (paragraphChunk c) = plain [c] ∧ outline (paragraphChunk c) = outline [c] := by
      by_cases ht : ∃ l t, c = .mk l (.text t)
      · obtain ⟨l, t, rfl⟩ := ht
        have hp : ∀ c ∈ paragraphChunk (.mk l (.text t)), ∃ l, (∃ t, c = .mk l (.text t)) ∨ ∃ t, c = .mk l (.paragraphBreak t) := by
          intro c hc
          rcases paragraphChunk_mem hc with ⟨rfl, h3⟩ | ⟨_, _, _, ⟨l', t', he, _⟩ | ⟨l', b, he, _⟩⟩
          · exact absurd rfl (h3 t)
          · exact ⟨l', .inl ⟨t', he⟩⟩
          · exact ⟨l', .inr ⟨b, he⟩⟩
        have hd : displayChunks (paragraphChunk (.mk l (.text t))) = t := by
          have := display_paragraphs [.mk l (.text t)]
          simpa [paragraphs, displayChunks, Chunk.display, ChunkVariant.display] using this
        obtain ⟨h1, h2⟩ := textual hp
        rw [h1, h2, hd]
        exact ⟨by simp [plain, ChunkVariant.plain], by simp [outline, ChunkVariant.outline]⟩
      · obtain ⟨l, v⟩ := c
        have : paragraphChunk (.mk l v) = [.mk l v] := by
          cases v with
          | text t => exact absurd ⟨l, t, rfl⟩ ht
          | _ => rfl
        rw [this]
        exact ⟨rfl, rfl⟩
    rw [paragraphs, plain_append, outline_append, key.1, key.2, ih.1, ih.2]
    obtain ⟨l, v⟩ := c
    exact ⟨by simp [plain], by simp [outline]⟩

theorem plain_textIf (l t) : plain (textIf l t) = noDollars t ∧ outline (textIf l t) = [] := by
  unfold textIf
  split
  · rename_i h; subst h; exact ⟨by simp [plain, noDollars], by simp [outline]⟩
  · exact ⟨by simp [plain, ChunkVariant.plain], by simp [outline, ChunkVariant.outline]⟩

theorem plain_textIf2 (l t) : Ast2.plain (textIf2 l t) = noDollars t ∧ Ast2.outline (textIf2 l t) = [] := by
  unfold textIf2
  split
  · rename_i h; subst h; exact ⟨rfl, by simp [Ast2.outline]⟩
  · exact ⟨by simp [Ast2.plain], by simp [Ast2.outline, Ast2.ChunkVariant.outline]⟩

theorem plain_notText {ms : List Ast2.Chunk} (h : ∀ m ∈ ms, NotText m) : Ast2.plain ms = [] := by
  induction ms with
  | nil => rfl
  | cons m ms ih =>
    obtain ⟨l, v⟩ := m
    cases v with
    | text t => exact absurd rfl (h _ (.head _) t)
    | _ => exact ih fun m hm => h m (.tail _ hm)

theorem countFrom_skeleton (n : Nat) (cs : List Ast2.Chunk) :
    Ast2.plain (cs.map (countFrom n)) = Ast2.plain cs ∧ Ast2.outline (cs.map (countFrom n)) = Ast2.outline cs := by
  have : (cs.map (countFrom n)).map Ast2.Chunk.variant = cs.map Ast2.Chunk.variant := by
    rw [List.map_map]
    exact List.map_congr_left fun c _ => by cases c; rfl
  exact ⟨Ast2.plain_variants this, Ast2.outline_variants this⟩

theorem toDollar_skeleton {p lost kept p'} (h : ToDollar p lost kept p') :
    noDollars (p.pending ++ p.text) ++ Ast2.plain p.rest =
      plain lost ++ (noDollars (p'.pending ++ p'.text) ++ Ast2.plain p'.rest) ∧
    Ast2.outline p.rest = Ast2.outline kept ++ Ast2.outline p'.rest ∧ outline lost = [] ∧ Ast2.plain kept = [] := by
  induction h with
  | here => exact ⟨by simp [noDollars_append, noDollars_dollar, plain], by simp [Ast2.outline], by simp [outline], rfl⟩
  | @later l q x ms l' t rest lost kept p hx hm _ ih =>
    obtain ⟨i1, i2, i3, i4⟩ := ih
    refine ⟨?_, ?_, ?_, ?_⟩
    · simp only [List.nil_append] at i1
      simp [plain_append, (plain_textIf _ _).1, Ast2.plain_append, plain_notText hm, Ast2.plain, i1]
    · simp [Ast2.outline_append, Ast2.outline, Ast2.ChunkVariant.outline, i2]
    · simp [outline_append, (plain_textIf _ _).2, i3]
    · simp [Ast2.plain_append, plain_notText hm, i4]

theorem formula_skeleton {p lost type content p'} (h : Formula p lost type content p') (hp : p.pending = []) :
    noDollars p.text ++ Ast2.plain p.rest = plain lost ++ (Ast2.plain content ++ (noDollars p'.text ++ Ast2.plain p'.rest)) ∧
    Ast2.outline p.rest = Ast2.outline content ++ Ast2.outline p'.rest ∧ outline lost = [] := by
  cases h with
  | inline h1 _ =>
    obtain ⟨a1, a2, a3, a4⟩ := toDollar_skeleton h1
    refine ⟨?_, ?_, a3⟩
    · simpa [hp, Ast2.plain_append, a4, (plain_textIf2 _ _).1, noDollars_append] using a1
    · simpa [Ast2.outline_append, (plain_textIf2 _ _).2] using a2
  | display h1 h2 h3 h4 =>
    obtain ⟨a1, a2, a3, a4⟩ := toDollar_skeleton h1
    obtain ⟨b1, b2, b3, b4⟩ := toDollar_skeleton h3
    obtain ⟨c1, c2, c3, c4⟩ := toDollar_skeleton h4
    refine ⟨?_, ?_, ?_⟩
    · simp only [hp, h2, List.nil_append] at a1 b1
      rw [a1, b1, c1]
      simp [plain_append, Ast2.plain_append, b4, c4, (plain_textIf2 _ _).1, noDollars_append]
    · rw [a2, b2, c2]
      simp [Ast2.outline_append, Ast2.outline, (plain_textIf2 _ _).2]
    · simp [outline_append, a3, b3, c3]

theorem inside_skeleton {k body inner} (h : Inside k body inner) :
    Ast2.plain body = Ast2.plain inner ∧ Ast2.outline body = Ast2.outline inner := by
  have hd : ∀ k : MathsType, (openLabel k ∈ [chars!"(", chars!")", chars!"[", chars!"]"]) ∧ closeLabel k ∈ [chars!"(", chars!")", chars!"[", chars!"]"] := by
    intro k; cases k <;> decide
  induction h with
  | nil => exact ⟨rfl, rfl⟩
  | @other c body inner hn _ ih =>
    obtain ⟨l, v⟩ := c
    exact ⟨by cases v <;> simp [Ast2.plain, ih.1], by simp [Ast2.outline, ih.2]⟩
  | nested _ _ ih1 ih2 =>
    exact ⟨by simp [Ast2.plain, Ast2.plain_append, ih1.1, ih2.1],
      by rw [Ast2.outline, Ast2.outline_append, Ast2.outline, Ast2.outline_append, Ast2.ChunkVariant.outline, Ast2.ChunkVariant.outline, Ast2.Command.outline,
        Ast2.Command.outline, if_pos (hd _).1, if_pos (hd _).2, ih1.2, ih2.2]; simp⟩

/-- Both streams are the same. -/
def SameOrder (out : List Chunk) (cs : List Ast2.Chunk) : Prop := plain out = Ast2.plain cs ∧ outline out = Ast2.outline cs

theorem args_skeleton {items : List ((Str × Ast2.Scope) × Outcome)} {args} (h : argOutcome items = .ok args)
    (ih : ∀ x ∈ items, ∀ out, x.2 = .ok out → SameOrder out x.1.2.chunks) :
    outlineArgs args = Ast2.outlineArgs (items.map (·.1)) := by
  induction items generalizing args with
  | nil => simp [argOutcome] at h; subst h; simp [outlineArgs, Ast2.outlineArgs]
  | cons x r ihr =>
    obtain ⟨⟨p, ⟨inner, sv⟩⟩, o⟩ := x
    cases o with
    | error f => simp [argOutcome] at h
    | ok out =>
      cases ha : argOutcome r with
      | error f => simp [argOutcome, ha] at h
      | ok args' =>
        simp [argOutcome, ha] at h
        subst h
        have h1 := ihr ha fun y hy => ih y (.tail _ hy)
        have h2 := ih _ (.head _) out rfl
        simp [outlineArgs, Ast2.outlineArgs, Scope.outlineArg, Ast2.Scope.outlineArg, Ast2.Scope.variant, (paragraphs_skeleton out).1,
          (paragraphs_skeleton out).2, h1, h2.1, h2.2, Ast2.Scope.chunks]

theorem Yields.skeleton {b cs o} (h : Yields b cs o) : ∀ out, o = .ok out → SameOrder out cs := by
  have hdk : ∀ k : MathsType, (openLabel k ∈ [chars!"(", chars!")", chars!"[", chars!"]"]) ∧ closeLabel k ∈ [chars!"(", chars!")", chars!"[", chars!"]"] := by
    intro k; cases k <;> decide
  induction h with
  | nil => rintro _ ⟨⟩; exact ⟨by simp [plain, Ast2.plain], by simp [outline, Ast2.outline]⟩
  | @text b l t cs o _ _ ih =>
    intro out h
    obtain ⟨o', rfl, rfl⟩ := before_ok h
    obtain ⟨i1, i2⟩ := ih _ rfl
    exact ⟨by simp [plain_append, (plain_textIf _ _).1, Ast2.plain, i1], by simp [outline_append, (plain_textIf _ _).2, Ast2.outline, Ast2.ChunkVariant.outline, i2]⟩
  | @formula b l q r cs lost type content p i o hq hf _ _ _ ih1 ih2 =>
    intro out h
    cases i with
    | error f => simp [blockOutcome] at h
    | ok i =>
      obtain ⟨o', rfl, rfl⟩ := before_ok h
      obtain ⟨i1, i2⟩ := ih1 _ rfl
      obtain ⟨j1, j2⟩ := ih2 _ rfl
      obtain ⟨a1, a2, a3⟩ := formula_skeleton hf rfl
      rw [(countFrom_skeleton _ _).1] at i1
      rw [(countFrom_skeleton _ _).2] at i2
      simp only [Ast2.plain] at j1
      simp only [Ast2.outline, Ast2.ChunkVariant.outline, List.nil_append] at j2
      constructor
      · simp only [plain_append, (plain_textIf _ _).1, plain, ChunkVariant.plain, MathsBlock.plain, (paragraphs_skeleton i).1, i1, j1,
          Ast2.plain, noDollars_append, noDollars_dollar, List.append_assoc, List.append_nil, a1]
      · simp only [outline_append, (plain_textIf _ _).2, outline, ChunkVariant.outline, MathsBlock.outline, (paragraphs_skeleton i).2, i2, j2, a3,
          Ast2.outline, Ast2.ChunkVariant.outline, List.nil_append, List.append_nil, a2]
  | uncountable => intro out h; cases h
  | unfinished => intro out h; cases h
  | @brackets b k l args body inner l' args' cs i o hin _ _ ih1 ih2 =>
    intro out h
    cases i with
    | error f => simp [blockOutcome] at h
    | ok i =>
      obtain ⟨o', rfl, rfl⟩ := before_ok h
      obtain ⟨i1, i2⟩ := ih1 _ rfl
      obtain ⟨j1, j2⟩ := ih2 _ rfl
      obtain ⟨a1, a2⟩ := inside_skeleton hin
      constructor
      · simp only [plain_append, plain, ChunkVariant.plain, MathsBlock.plain, (paragraphs_skeleton i).1, i1, j1,
          Ast2.plain, Ast2.plain_append, a1, List.nil_append, List.append_nil]
      · simp only [outline_append, outline, ChunkVariant.outline, MathsBlock.outline, (paragraphs_skeleton i).2, i2, j2,
          Ast2.outline, Ast2.outline_append, a2, List.nil_append, List.append_nil, Ast2.ChunkVariant.outline, Ast2.Command.outline, if_pos (hdk k).1, if_pos (hdk k).2]
  | unclosed => intro out h; cases h
  | unexpected => intro out h; cases h
  | @scope b l inner sv cs i o _ _ ih1 ih2 =>
    intro out h
    cases i with
    | error f => simp [scopeOutcome] at h
    | ok i =>
      simp only [scopeOutcome] at h
      obtain ⟨o', rfl, rfl⟩ := before_ok h
      obtain ⟨i1, i2⟩ := ih1 _ rfl
      obtain ⟨j1, j2⟩ := ih2 _ rfl
      exact ⟨by simp [plain, ChunkVariant.plain, Ast2.plain, j1], by simp [outline, ChunkVariant.outline, Scope.outline, Ast2.outline,
        Ast2.ChunkVariant.outline, Ast2.Scope.outline, (paragraphs_skeleton i).1, (paragraphs_skeleton i).2, i1, i2, j2]⟩
  | @command b l label cs o items hl _ _ ih1 ih2 =>
    intro out h
    cases ha : argOutcome items with
    | error f => simp [commandOutcome, ha] at h
    | ok args =>
      simp only [commandOutcome, ha] at h
      obtain ⟨o', rfl, rfl⟩ := before_ok h
      have h1 := args_skeleton ha ih1
      obtain ⟨j1, j2⟩ := ih2 _ rfl
      constructor
      · simp [plain, ChunkVariant.plain, Ast2.plain, j1]
      · rw [Ast2.outline, Ast2.ChunkVariant.outline, Ast2.Command.outline, if_neg (show ¬ label ∈ [chars!"(", chars!")", chars!"[", chars!"]"] from hl), ← h1, ← j2]
        simp [outline, ChunkVariant.outline, Command.outline]
  | @environment b l label body pb pe cs i o items _ _ _ ih1 ih2 ih3 =>
    intro out h
    cases ha : argOutcome items with
    | error f => simp [environmentOutcome, ha] at h
    | ok args =>
      cases i with
      | error f => simp [environmentOutcome, ha] at h
      | ok i =>
        simp only [environmentOutcome, ha] at h
        obtain ⟨o', rfl, rfl⟩ := before_ok h
        have h1 := args_skeleton ha ih1
        obtain ⟨i1, i2⟩ := ih2 _ rfl
        obtain ⟨j1, j2⟩ := ih3 _ rfl
        exact ⟨by simp [plain, ChunkVariant.plain, Ast2.plain, j1], by simp [outline, ChunkVariant.outline, Environment.outline, Ast2.outline,
          Ast2.ChunkVariant.outline, Ast2.Environment.outline, (paragraphs_skeleton i).1, (paragraphs_skeleton i).2, i1, i2, j2, h1]⟩

theorem maths_skeleton {cs out} (h : mathsFromChunks cs = .ok out) : SameOrder out cs := by
  obtain ⟨o, h1, h2⟩ := yields_iff.1 h
  cases o with
  | error f => cases h2
  | ok raw =>
    cases h2
    obtain ⟨a, b⟩ := paragraphs_skeleton raw
    obtain ⟨c, d⟩ := h1.skeleton _ rfl
    exact ⟨a.trans c, b.trans d⟩

end LatexAst.Ast3
