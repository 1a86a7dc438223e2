import Verif.Spec.Forward
import Verif.Proofs.MathsRule
import Verif.Proofs.Again3c

/-!
# Stage 3 only moves texts forward
-/

namespace LatexAst.Spec

theorem charWords_append (a b : Str) : charWords (a ++ b) = charWords a ++ charWords b := by simp [charWords]
theorem charWords_dollar (a : Str) : charWords ('$' :: a) = charWords a := by simp [charWords]

/-- Only characters. -/
def Thin (a : List Word) : Prop := ∀ w ∈ a, ∃ c, w = .char c
/-- No characters. -/
def Thick (a : List Word) : Prop := ∀ w ∈ a, w.Bulky

theorem thin_charWords (s : Str) : Thin (charWords s) := by
  intro w hw
  simp only [charWords, List.mem_map] at hw
  obtain ⟨c, _, rfl⟩ := hw
  exact ⟨c, rfl⟩

theorem Thin.append {a b} (ha : Thin a) (hb : Thin b) : Thin (a ++ b) := fun w hw => (List.mem_append.1 hw).elim (ha w) (hb w)
theorem Thick.append {a b} (ha : Thick a) (hb : Thick b) : Thick (a ++ b) := fun w hw => (List.mem_append.1 hw).elim (ha w) (hb w)
theorem thin_nil : Thin [] := fun _ h => nomatch h
theorem thick_nil : Thick [] := fun _ h => nomatch h

theorem Forward.of_eq {a b} (h : a = b) : Forward a b := h ▸ .refl a
theorem Forward.front {a b} (c) (h : Forward a b) : Forward (c ++ a) (c ++ b) := .append (.refl c) h
theorem Forward.back {a b} (c) (h : Forward a b) : Forward (a ++ c) (b ++ c) := .append h (.refl c)

theorem Forward.one {w cs} (hw : w.Bulky) (hc : Thin cs) : Forward (w :: cs) (cs ++ [w]) := by
  induction cs with
  | nil => exact .refl _
  | cons x cs ih =>
    obtain ⟨c, rfl⟩ := hc _ (.head _)
    have h1 : Forward ([w, .char c] ++ cs) ([.char c, w] ++ cs) := .back _ (.move c hw)
    have h2 : Forward ([.char c] ++ (w :: cs)) ([.char c] ++ (cs ++ [w])) := .front _ (ih fun y hy => hc y (.tail _ hy))
    exact h1.trans h2

theorem Forward.swap {ws cs} (hw : Thick ws) (hc : Thin cs) : Forward (ws ++ cs) (cs ++ ws) := by
  induction ws with
  | nil => exact .of_eq (by simp)
  | cons w ws ih =>
    have h1 : Forward ([w] ++ (ws ++ cs)) ([w] ++ (cs ++ ws)) := .front _ (ih fun y hy => hw y (.tail _ hy))
    have h2 : Forward ((w :: cs) ++ ws) ((cs ++ [w]) ++ ws) := .back _ (.one (hw _ (.head _)) hc)
    exact h1.trans (h2.trans (.of_eq (by simp)))

theorem Forward.command_args {label as as' bs} (h : as.length = as'.length)
    (hh : ∀ i (h1 : i < as.length) (h2 : i < as'.length), as[i].1 = as'[i].1 ∧ as[i].2.1 = as'[i].2.1 ∧ Forward as[i].2.2 as'[i].2.2) :
    Forward [.command label (bs ++ as)] [.command label (bs ++ as')] := by
  induction as generalizing as' bs with
  | nil => cases as' with
    | nil => exact .refl _
    | cons => cases h
  | cons a as ih =>
    cases as' with
    | nil => cases h
    | cons b as' =>
      obtain ⟨p, v, x⟩ := a
      obtain ⟨p', v', y⟩ := b
      obtain ⟨rfl, rfl, h3⟩ : p = p' ∧ v = v' ∧ Forward x y := hh 0 (by simp) (by simp)
      have h4 := ih (as' := as') (bs := bs ++ [(p, v, y)]) (by simpa using h) (fun i h1 h2 => by
        have := hh (i + 1) (by simpa using h1) (by simpa using h2); simpa using this)
      exact (Forward.command label bs p v as h3).trans (by simpa using h4)

theorem Forward.environment_args {label as as' bs i pb pe} (h : as.length = as'.length)
    (hh : ∀ i (h1 : i < as.length) (h2 : i < as'.length), as[i].1 = as'[i].1 ∧ as[i].2.1 = as'[i].2.1 ∧ Forward as[i].2.2 as'[i].2.2) :
    Forward [.environment label (bs ++ as) i pb pe] [.environment label (bs ++ as') i pb pe] := by
  induction as generalizing as' bs with
  | nil => cases as' with
    | nil => exact .refl _
    | cons => cases h
  | cons a as ih =>
    cases as' with
    | nil => cases h
    | cons b as' =>
      obtain ⟨p, v, x⟩ := a
      obtain ⟨p', v', y⟩ := b
      obtain ⟨rfl, rfl, h3⟩ : p = p' ∧ v = v' ∧ Forward x y := hh 0 (by simp) (by simp)
      have h4 := ih (as' := as') (bs := bs ++ [(p, v, y)]) (by simpa using h) (fun i h1 h2 => by
        have := hh (i + 1) (by simpa using h1) (by simpa using h2); simpa using this)
      exact (Forward.argument label bs p v as i pb pe h3).trans (by simpa using h4)

/-- How many scopes, commands and environments there are. -/
def bulk : List Word → Nat
  | [] => 0
  | .char _ :: r => bulk r
  | _ :: r => bulk r + 1

/-- The characters. -/
def wordText : List Word → Str
  | [] => []
  | .char c :: r => c :: wordText r
  | _ :: r => wordText r

theorem bulk_append (a b) : bulk (a ++ b) = bulk a + bulk b := by
  induction a with
  | nil => simp [bulk]
  | cons w a ih => cases w <;> simp [bulk, ih] <;> omega

theorem wordText_append (a b) : wordText (a ++ b) = wordText a ++ wordText b := by
  induction a with
  | nil => simp [wordText]
  | cons w a ih => cases w <;> simp [wordText, ih]

theorem textBefore_append (k a b) : textBefore k (a ++ b) = if k < bulk a then textBefore k a else wordText a ++ textBefore (k - bulk a) b := by
  induction a generalizing k with
  | nil => simp [bulk, wordText]
  | cons w a ih =>
    cases w with
    | char c =>
      have hb : bulk (.char c :: a) = bulk a := rfl
      rw [List.cons_append, textBefore, hb, ih]
      by_cases h : k < bulk a <;> simp [textBefore, wordText, h]
    | _ =>
      cases k with
      | zero => simp [textBefore, bulk]
      | succ k => simp [textBefore, bulk, wordText, ih]

theorem Forward.keeps {a b} (h : Forward a b) : wordText a = wordText b ∧ bulk a = bulk b := by
  induction h with
  | refl => exact ⟨rfl, rfl⟩
  | trans _ _ ih1 ih2 => exact ⟨ih1.1.trans ih2.1, ih1.2.trans ih2.2⟩
  | append _ _ ih1 ih2 => exact ⟨by rw [wordText_append, wordText_append, ih1.1, ih2.1], by rw [bulk_append, bulk_append, ih1.2, ih2.2]⟩
  | @move w c hw =>
    cases w with
    | char d => exact absurd rfl (hw d)
    | _ => exact ⟨rfl, rfl⟩
  | _ => exact ⟨rfl, rfl⟩

theorem Forward.prefix {a b} (h : Forward a b) (k : Nat) : textBefore k a <+: textBefore k b := by
  induction h generalizing k with
  | refl => exact List.prefix_refl _
  | trans _ _ ih1 ih2 => exact (ih1 k).trans (ih2 k)
  | append h1 h2 ih1 ih2 =>
    rw [textBefore_append, textBefore_append, h1.keeps.1, h1.keeps.2]
    split
    · exact ih1 k
    · exact (List.prefix_append_right_inj _).2 (ih2 _)
  | @move w c hw =>
    cases w with
    | char d => exact absurd rfl (hw d)
    | _ => cases k <;> simp [textBefore]
  | _ => cases k <;> simp [textBefore]

end LatexAst.Spec

namespace LatexAst.Ast2
open Spec

theorem words_append (a b : List Chunk) : words (a ++ b) = words a ++ words b := by
  induction a with
  | nil => simp [words]
  | cons c a ih => obtain ⟨l, v⟩ := c; simp [words, ih]

theorem words_variants {a b : List Chunk} (h : a.map Chunk.variant = b.map Chunk.variant) : words a = words b := by
  induction a generalizing b with
  | nil => cases b with
    | nil => rfl
    | cons => cases h
  | cons c a ih =>
    cases b with
    | nil => cases h
    | cons d b =>
      obtain ⟨l, v⟩ := c
      obtain ⟨m, w⟩ := d
      simp only [List.map_cons, List.cons.injEq, Chunk.variant] at h
      obtain ⟨rfl, h⟩ := h
      simp [words, ih h]

end LatexAst.Ast2

namespace LatexAst.Ast3
open Spec

theorem words_append (a b : List Chunk) : words (a ++ b) = words a ++ words b := by
  induction a with
  | nil => simp [words]
  | cons c a ih => obtain ⟨l, v⟩ := c; simp [words, ih]

theorem words_textual {cs : List Chunk} (h : ∀ c ∈ cs, ∃ l, (∃ t, c = .mk l (.text t)) ∨ ∃ t, c = .mk l (.paragraphBreak t)) :
    words cs = charWords (displayChunks cs) := by
  induction cs with
  | nil => simp [words, displayChunks, charWords]
  | cons c cs ih =>
    have i1 := ih fun c hc => h c (.tail _ hc)
    obtain ⟨l, ⟨t, rfl⟩ | ⟨t, rfl⟩⟩ := h _ (.head _) <;>
    simp [words, ChunkVariant.words, displayChunks, Chunk.display, ChunkVariant.display, charWords_append, i1]

theorem words_paragraphs (cs : List Chunk) : words (paragraphs cs) = words cs := by
  induction cs with
  | nil => rfl
  | cons c cs ih =>
    have key : words (paragraphChunk c) = words [c] := by
      by_cases ht : ∃ l t, c = .mk l (.text t)
      · obtain ⟨l, t, rfl⟩ := ht
        have hp : ∀ c ∈ paragraphChunk (.mk l (.text t)), ∃ l, (∃ t, c = .mk l (.text t)) ∨ ∃ t, c = .mk l (.paragraphBreak t) := by
          intro c hc
          rcases paragraphChunk_mem hc with ⟨rfl, h3⟩ | ⟨_, _, _, ⟨l', t', he, _⟩ | ⟨l', b, he, _⟩⟩
          · exact absurd rfl (h3 t)
          · exact ⟨l', .inl ⟨t', he⟩⟩
          · exact ⟨l', .inr ⟨b, he⟩⟩
        have hd : displayChunks (paragraphChunk (.mk l (.text t))) = t := by
          have := display_paragraphs [.mk l (.text t)]
          simpa [paragraphs, displayChunks, Chunk.display, ChunkVariant.display] using this
        rw [words_textual hp, hd]
        simp [words, ChunkVariant.words]
      · obtain ⟨l, v⟩ := c
        have : paragraphChunk (.mk l v) = [.mk l v] := by
          cases v with
          | text t => exact absurd ⟨l, t, rfl⟩ ht
          | _ => rfl
        rw [this]
    rw [paragraphs, words_append, key, ih]
    obtain ⟨l, v⟩ := c
    simp [words]

theorem words_textIf (l t) : words (textIf l t) = charWords t := by
  unfold textIf
  split
  · rename_i h; subst h; simp [words, charWords]
  · simp [words, ChunkVariant.words]

theorem words_textIf2 (l t) : Ast2.words (textIf2 l t) = charWords t := by
  unfold textIf2
  split
  · rename_i h; subst h; simp [Ast2.words, charWords]
  · simp [Ast2.words, Ast2.ChunkVariant.words]

theorem thick_notText {ms : List Ast2.Chunk} (h : ∀ m ∈ ms, NotText m) : Thick (Ast2.words ms) := by
  induction ms with
  | nil => simpa [Ast2.words] using thick_nil
  | cons m ms ih =>
    obtain ⟨l, v⟩ := m
    rw [Ast2.words]
    refine .append ?_ (ih fun m hm => h m (.tail _ hm))
    cases v with
    | text t => exact absurd rfl (h _ (.head _) t)
    | scope s => obtain ⟨cs, v⟩ := s; intro w hw; simp [Ast2.ChunkVariant.words, Ast2.Scope.words] at hw; subst hw; intro c; simp
    | command s =>
      obtain ⟨cs, v⟩ := s
      intro w hw
      rw [Ast2.ChunkVariant.words, Ast2.Command.words] at hw
      split at hw
      · cases hw
      · simp at hw; subst hw; intro c; simp
    | environment s => obtain ⟨_, _, _, _, _⟩ := s; intro w hw; simp [Ast2.ChunkVariant.words, Ast2.Environment.words] at hw; subst hw; intro c; simp

theorem words_countFrom (n : Nat) (cs : List Ast2.Chunk) : Ast2.words (cs.map (countFrom n)) = Ast2.words cs := by
  have : (cs.map (countFrom n)).map Ast2.Chunk.variant = cs.map Ast2.Chunk.variant := by
    rw [List.map_map]
    exact List.map_congr_left fun c _ => by cases c; rfl
  exact Ast2.words_variants this

theorem toDollar_forward {p lost kept p'} (h : ToDollar p lost kept p') :
    Forward (charWords (p.pending ++ p.text) ++ Ast2.words p.rest)
      (words lost ++ (Ast2.words kept ++ (charWords (p'.pending ++ p'.text) ++ Ast2.words p'.rest))) ∧
    Thin (words lost) ∧ Thick (Ast2.words kept) := by
  induction h with
  | here => exact ⟨.of_eq (by simp [charWords_append, charWords_dollar, words, Ast2.words]), by simpa [words] using thin_nil, by simpa [Ast2.words] using thick_nil⟩
  | @later l q x ms l' t rest lost kept p hx hm _ ih =>
    obtain ⟨i1, i2, i3⟩ := ih
    refine ⟨?_, ?_, ?_⟩
    · simp only [List.nil_append] at i1
      simp only [words_append, words_textIf, Ast2.words_append, Ast2.words, Ast2.ChunkVariant.words]
      have h1 := Forward.front (charWords (q ++ x)) (Forward.front (Ast2.words ms) i1)
      have h2 := Forward.back (Ast2.words kept ++ (charWords (p.pending ++ p.text) ++ Ast2.words p.rest))
        (Forward.front (charWords (q ++ x)) (Forward.swap (thick_notText hm) i2))
      exact h1.trans ((Forward.of_eq (by simp)).trans (h2.trans (.of_eq (by simp))))
    · rw [words_append, words_textIf]; exact (thin_charWords _).append i2
    · rw [Ast2.words_append]; exact (thick_notText hm).append i3

theorem formula_forward {p lost type content p'} (h : Formula p lost type content p') (hp : p.pending = []) :
    Forward (charWords p.text ++ Ast2.words p.rest)
      (words lost ++ (Ast2.words content ++ (charWords p'.text ++ Ast2.words p'.rest))) := by
  cases h with
  | inline h1 _ =>
    obtain ⟨a1, _, _⟩ := toDollar_forward h1
    rw [hp, List.nil_append] at a1
    exact a1.trans (.of_eq (by simp [Ast2.words_append, words_textIf2, charWords_append]))
  | @display lost₁ p₁ lost₂ kept₂ p₂ lost₃ kept₃ _ h1 h2 h3 h4 =>
    obtain ⟨a1, _, _⟩ := toDollar_forward h1
    obtain ⟨b1, _, b3⟩ := toDollar_forward h3
    obtain ⟨c1, c2, _⟩ := toDollar_forward h4
    rw [hp, List.nil_append, h2, List.nil_append] at a1
    rw [h2, List.nil_append] at b1
    simp only [Ast2.words, List.nil_append] at a1
    have k1 := Forward.front (words lost₁) b1
    have k2 := Forward.front (words lost₁ ++ words lost₂ ++ Ast2.words kept₂) c1
    have k3 := Forward.back (Ast2.words kept₃ ++ (charWords (p'.pending ++ p'.text) ++ Ast2.words p'.rest))
      (Forward.front (words lost₁ ++ words lost₂) (Forward.swap b3 c2))
    refine a1.trans (k1.trans ((Forward.of_eq (by simp)).trans (k2.trans ((Forward.of_eq (by simp)).trans (k3.trans (.of_eq ?_))))))
    simp [words_append, Ast2.words_append, words_textIf2, charWords_append]

theorem words_inside {k body inner} (h : Inside k body inner) : Ast2.words body = Ast2.words inner := by
  have hd : ∀ k : MathsType, (openLabel k ∈ [chars!"(", chars!")", chars!"[", chars!"]"]) ∧ closeLabel k ∈ [chars!"(", chars!")", chars!"[", chars!"]"] := by
    intro k; cases k <;> decide
  induction h with
  | nil => rfl
  | @other c body inner hn _ ih =>
    obtain ⟨l, v⟩ := c
    simp [Ast2.words, ih]
  | nested _ _ ih1 ih2 =>
    rw [Ast2.words, Ast2.words_append, Ast2.words, Ast2.words_append, Ast2.ChunkVariant.words, Ast2.ChunkVariant.words, Ast2.Command.words,
        Ast2.Command.words, if_pos (hd _).1, if_pos (hd _).2, ih1, ih2]; simp

theorem args_forward {items : List ((Str × Ast2.Scope) × Outcome)} {args} (h : argOutcome items = .ok args)
    (ih : ∀ x ∈ items, ∀ out, x.2 = .ok out → Forward (Ast2.words x.1.2.chunks) (words out)) :
    (Ast2.argWords (items.map (·.1))).length = (argWords args).length ∧
    ∀ i (h1 : i < (Ast2.argWords (items.map (·.1))).length) (h2 : i < (argWords args).length),
      (Ast2.argWords (items.map (·.1)))[i].1 = (argWords args)[i].1 ∧ (Ast2.argWords (items.map (·.1)))[i].2.1 = (argWords args)[i].2.1 ∧
      Forward (Ast2.argWords (items.map (·.1)))[i].2.2 (argWords args)[i].2.2 := by
  induction items generalizing args with
  | nil => simp [argOutcome] at h; subst h; simp [argWords, Ast2.argWords]
  | cons x r ihr =>
    obtain ⟨⟨p, ⟨inner, sv⟩⟩, o⟩ := x
    cases o with
    | error f => simp [argOutcome] at h
    | ok out =>
      cases ha : argOutcome r with
      | error f => simp [argOutcome, ha] at h
      | ok args' =>
        simp [argOutcome, ha] at h
        subst h
        obtain ⟨h1, h2⟩ := ihr ha fun y hy => ih y (.tail _ hy)
        have h3 : Forward (Ast2.words inner) (words out) := ih _ (.head _) out rfl
        simp only [List.map_cons, Ast2.argWords, argWords, Ast2.Scope.argWord, Scope.argWord, Ast2.Scope.variant, words_paragraphs]
        refine ⟨by simp [h1], ?_⟩
        intro i a b
        cases i with
        | zero => exact ⟨rfl, rfl, h3⟩
        | succ i => exact h2 i (by simpa using a) (by simpa using b)

theorem Yields.forward {b cs o} (h : Yields b cs o) : ∀ out, o = .ok out → Forward (Ast2.words cs) (words out) := by
  have hdk : ∀ k : MathsType, (openLabel k ∈ [chars!"(", chars!")", chars!"[", chars!"]"]) ∧ closeLabel k ∈ [chars!"(", chars!")", chars!"[", chars!"]"] := by
    intro k; cases k <;> decide
  induction h with
  | nil => rintro _ ⟨⟩; exact .of_eq (by simp [words, Ast2.words])
  | @text b l t cs o _ _ ih =>
    intro out h
    obtain ⟨o', rfl, rfl⟩ := before_ok h
    have i1 := ih _ rfl
    simp only [Ast2.words, Ast2.ChunkVariant.words, words_append, words_textIf]
    exact i1.front _
  | @formula b l q r cs lost type content p i o hq hf _ _ _ ih1 ih2 =>
    intro out h
    cases i with
    | error f => simp [blockOutcome] at h
    | ok i =>
      obtain ⟨o', rfl, rfl⟩ := before_ok h
      have i1 := ih1 _ rfl
      have j1 := ih2 _ rfl
      have a1 := formula_forward hf rfl
      rw [words_countFrom] at i1
      simp only [Ast2.words, Ast2.ChunkVariant.words] at j1
      simp only [Ast2.words, Ast2.ChunkVariant.words, words_append, words_textIf, words, ChunkVariant.words, MathsBlock.words,
        words_paragraphs, charWords_append, charWords_dollar, List.append_assoc, List.append_nil]
      exact .front _ (a1.trans (.front _ (.append i1 j1)))
  | uncountable => intro out h; cases h
  | unfinished => intro out h; cases h
  | @brackets b k l args body inner l' args' cs i o hin _ _ ih1 ih2 =>
    intro out h
    cases i with
    | error f => simp [blockOutcome] at h
    | ok i =>
      obtain ⟨o', rfl, rfl⟩ := before_ok h
      have i1 := ih1 _ rfl
      have j1 := ih2 _ rfl
      rw [Ast2.words, Ast2.words_append, Ast2.words, Ast2.ChunkVariant.words, Ast2.ChunkVariant.words, Ast2.Command.words,
        Ast2.Command.words, if_pos (hdk k).1, if_pos (hdk k).2, words_inside hin]
      simp only [words_append, words, ChunkVariant.words, MathsBlock.words, words_paragraphs, List.nil_append, List.append_nil]
      exact .append i1 j1
  | unclosed => intro out h; cases h
  | unexpected => intro out h; cases h
  | @scope b l inner sv cs i o _ _ ih1 ih2 =>
    intro out h
    cases i with
    | error f => simp [scopeOutcome] at h
    | ok i =>
      simp only [scopeOutcome] at h
      obtain ⟨o', rfl, rfl⟩ := before_ok h
      have i1 := ih1 _ rfl
      have j1 := ih2 _ rfl
      simp only [Ast2.words, Ast2.ChunkVariant.words, Ast2.Scope.words, words_append, words, ChunkVariant.words, Scope.words, words_paragraphs]
      exact .append (.scope _ i1) j1
  | @command b l label cs o items hl _ _ ih1 ih2 =>
    intro out h
    cases ha : argOutcome items with
    | error f => simp [commandOutcome, ha] at h
    | ok args =>
      simp only [commandOutcome, ha] at h
      obtain ⟨o', rfl, rfl⟩ := before_ok h
      obtain ⟨h1, h2⟩ := args_forward ha ih1
      have j1 := ih2 _ rfl
      rw [Ast2.words, Ast2.ChunkVariant.words, Ast2.Command.words, if_neg (show ¬ label ∈ [chars!"(", chars!")", chars!"[", chars!"]"] from hl)]
      simp only [words_append, words, ChunkVariant.words, Command.words, List.append_nil]
      rw [if_neg (show ¬ label ∈ [chars!"(", chars!")", chars!"[", chars!"]"] from hl)]
      exact .append (by simpa using Forward.command_args (label := label) (bs := []) h1 h2) j1
  | @environment b l label body pb pe cs i o items _ _ _ ih1 ih2 ih3 =>
    intro out h
    cases ha : argOutcome items with
    | error f => simp [environmentOutcome, ha] at h
    | ok args =>
      cases i with
      | error f => simp [environmentOutcome, ha] at h
      | ok i =>
        simp only [environmentOutcome, ha] at h
        obtain ⟨o', rfl, rfl⟩ := before_ok h
        obtain ⟨h1, h2⟩ := args_forward ha ih1
        have i1 := ih2 _ rfl
        have j1 := ih3 _ rfl
        simp only [Ast2.words, Ast2.ChunkVariant.words, Ast2.Environment.words, words_append, words, ChunkVariant.words, Environment.words,
          words_paragraphs, List.append_nil]
        refine .append ?_ j1
        exact (Forward.environment_args (label := label) (bs := []) h1 h2).trans (.environment _ _ _ _ i1)

theorem maths_forward {cs out} (h : mathsFromChunks cs = .ok out) : Forward (Ast2.words cs) (words out) := by
  obtain ⟨o, h1, h2⟩ := yields_iff.1 h
  cases o with
  | error f => cases h2
  | ok raw =>
    cases h2
    rw [words_paragraphs]
    exact h1.forward _ rfl

end LatexAst.Ast3
