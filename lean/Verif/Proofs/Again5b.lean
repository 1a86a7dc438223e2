import Verif.Proofs.Again5a

/-! What follows the document environment, going to stage 2 and back: what stays the same. -/

namespace LatexAst.Ast3
open Spec

theorem cutsTo_ex (p : Str) : ∃ ps, CutsTo p ps := ⟨_, paragraphs_textIf 0 p⟩

theorem rejoins_ex {cs x} (h : Resettles cs x) : ∀ p, ∃ out, Rejoins p cs out := by
  induction h with
  | nil => intro p; obtain ⟨ps, h⟩ := cutsTo_ex p; exact ⟨ps, .nil h⟩
  | piece hc _ ih => intro p; obtain ⟨out, h⟩ := ih (p ++ _); exact ⟨out, .piece hc h⟩
  | command hl h1 _ _ ih =>
    intro p
    obtain ⟨ps, hp⟩ := cutsTo_ex p
    obtain ⟨out, h⟩ := ih []
    exact ⟨_, .other hp (by intro t h; cases h) (by intro t h; cases h) (by intro t h; cases h) (.command hl h1 .nil) h⟩
  | scope h1 _ _ ih =>
    intro p
    obtain ⟨ps, hp⟩ := cutsTo_ex p
    obtain ⟨out, h⟩ := ih []
    exact ⟨_, .other hp (by intro t h; cases h) (by intro t h; cases h) (by intro t h; cases h) (.scope h1 .nil) h⟩
  | environment h1 h2 _ _ _ ih =>
    intro p
    obtain ⟨ps, hp⟩ := cutsTo_ex p
    obtain ⟨out, h⟩ := ih []
    exact ⟨_, .other hp (by intro t h; cases h) (by intro t h; cases h) (by intro t h; cases h) (.environment h1 h2 .nil) h⟩
  | brackets hw h1 _ ih1 ih2 =>
    intro p
    obtain ⟨ps, hp⟩ := cutsTo_ex p
    obtain ⟨content', h2⟩ := ih1 []
    obtain ⟨out, h3⟩ := ih2 []
    exact ⟨_, .brackets hp hw ⟨_, h1⟩ h2 h3⟩
  | @plain l k ms ms' rest rest' hn ht h1 _ _ ih2 =>
    intro p
    obtain ⟨ps, hp⟩ := cutsTo_ex p
    obtain ⟨out, h3⟩ := ih2 []
    have := Rejoins.dollars (l := l) (k := k) (pieces := []) (qs := []) hp ht h1 (by simp) (by simpa using hn) ⟨.nil, rfl⟩ h3
    rw [List.append_nil] at this
    exact ⟨_, this⟩
  | @dollars l k ms ms' left last rest rest' ht h1 hl hq _ _ ih2 =>
    intro p
    obtain ⟨ps, hp⟩ := cutsTo_ex p
    obtain ⟨qs, hqs⟩ := cutsTo_ex (displayChunks (left ++ [last]))
    obtain ⟨out, h3⟩ := ih2 []
    have := Rejoins.dollars (l := l) (k := k) (pieces := left ++ [last]) hp ht h1 (by
      intro c hc
      rcases List.mem_append.1 hc with hc | hc
      · exact hl c hc
      · rw [List.mem_singleton.1 hc]; exact hq) (by simp) hqs h3
    rw [← List.append_assoc] at this
    exact ⟨_, this⟩

/-! ### splitting lists -/

theorem first_split {α} {P : α → Prop} {c d : α} {X Y : List α} (hc : ¬ P c) (hd : ¬ P d) : ∀ {A B : List α}, (∀ a ∈ A, P a) → (∀ b ∈ B, P b) →
    (A ++ c :: X = B ++ d :: Y ↔ A = B ∧ c = d ∧ X = Y)
  | [], [], _, _ => by simp
  | [], b :: B, _, hB => by
    simp only [List.nil_append, List.cons_append, List.cons.injEq, reduceCtorEq, false_and, iff_false]
    rintro ⟨rfl, _⟩
    exact hc (hB _ (.head _))
  | a :: A, [], hA, _ => by
    simp only [List.nil_append, List.cons_append, List.cons.injEq, reduceCtorEq, false_and, iff_false]
    rintro ⟨rfl, _⟩
    exact hd (hA _ (.head _))
  | a :: A, b :: B, hA, hB => by
    simp only [List.cons_append, List.cons.injEq]
    rw [first_split hc hd (fun x h => hA x (.tail _ h)) fun x h => hB x (.tail _ h)]
    exact ⟨fun ⟨a, b, c, d⟩ => ⟨⟨a, b⟩, c, d⟩, fun ⟨⟨a, b⟩, c, d⟩ => ⟨a, b, c, d⟩⟩

theorem two_split {α} {P : α → Prop} {X Y : List α} (hX : ∀ a ∈ X, ¬ P a) (hY : ∀ a ∈ Y, ¬ P a) : ∀ {A B : List α}, (∀ a ∈ A, P a) → (∀ b ∈ B, P b) →
    (A ++ X = B ++ Y ↔ A = B ∧ X = Y)
  | [], [], _, _ => by simp
  | [], b :: B, _, hB => by
    simp only [List.nil_append, List.cons_append, reduceCtorEq, false_and, iff_false]
    rintro rfl
    exact hX b (.head _) (hB _ (.head _))
  | a :: A, [], hA, _ => by
    simp only [List.nil_append, List.cons_append, reduceCtorEq, false_and, iff_false]
    intro h
    exact hY a (by rw [← h]; exact .head _) (hA _ (.head _))
  | a :: A, b :: B, hA, hB => by
    simp only [List.cons_append, List.cons.injEq]
    rw [two_split hX hY (fun x h => hA x (.tail _ h)) fun x h => hB x (.tail _ h), and_assoc]

theorem textLike_noLines_iff {v : ChunkVariant} : TextLike v.noLines ↔ TextLike v := by
  cases v <;> simp [TextLike, ChunkVariant.noLines]

theorem mem_noLines {cs : List Chunk} {c : Chunk} (h : c ∈ noLines cs) : ∃ d ∈ cs, c.variant = d.variant.noLines := by
  induction cs with
  | nil => simp [noLines] at h
  | cons d cs ih =>
    obtain ⟨l, v⟩ := d
    simp only [noLines, List.mem_cons] at h
    rcases h with rfl | h
    · exact ⟨_, .head _, rfl⟩
    · obtain ⟨d, hd, he⟩ := ih h
      exact ⟨d, .tail _ hd, he⟩

theorem noLines_texts {cs : List Chunk} (h : ∀ c ∈ cs, c.IsText) : ∀ c ∈ noLines cs, c.IsText := by
  intro c hc
  obtain ⟨d, hd, he⟩ := mem_noLines hc
  have := h d hd
  unfold Chunk.IsText at *
  rw [he]
  exact textLike_noLines_iff.2 this

theorem noLines_others {cs : List Chunk} (h : ∀ c ∈ cs, ¬ c.IsText) : ∀ c ∈ noLines cs, ¬ c.IsText := by
  intro c hc ht
  obtain ⟨d, hd, he⟩ := mem_noLines hc
  refine h d hd ?_
  unfold Chunk.IsText at *
  rw [he] at ht
  exact textLike_noLines_iff.1 ht

theorem same_split {A B X Y : List Chunk} {c d : Chunk} (hA : ∀ a ∈ A, a.IsText) (hB : ∀ a ∈ B, a.IsText) (hc : ¬ c.IsText) (hd : ¬ d.IsText) :
    noLines (A ++ c :: X) = noLines (B ++ d :: Y) ↔ noLines A = noLines B ∧ noLines [c] = noLines [d] ∧ noLines X = noLines Y := by
  obtain ⟨l, v⟩ := c
  obtain ⟨l', v'⟩ := d
  have h1 := noLines_others (cs := [.mk l v]) (by simpa using hc)
  have h2 := noLines_others (cs := [.mk l' v']) (by simpa using hd)
  simp only [noLines, List.mem_singleton, forall_eq] at h1 h2
  simp only [noLines_append, noLines]
  rw [first_split h1 h2 (noLines_texts hA) (noLines_texts hB)]
  simp

theorem CutsTo.texts {p ps} (h : CutsTo p ps) : ∀ c ∈ ps, c.IsText := cut_isText h.1

/-- Cutting pieces up as one text changes nothing exactly if they are one text cut up. -/
theorem CutsTo.same {P ps} (h : CutsTo (displayChunks P) ps) (hP : ∀ c ∈ P, IsPiece c) : noLines ps = noLines P ↔ Cut false (P.map Chunk.variant) := by
  constructor
  · intro he
    have : ps.map Chunk.variant = P.map Chunk.variant := by
      have hp := h.texts
      clear h
      induction ps generalizing P with
      | nil =>
        have := congrArg List.length he
        rw [noLines_length, noLines_length] at this
        rw [List.length_eq_zero_iff.1 this.symm]
      | cons c ps ih =>
        obtain ⟨l, v⟩ := c
        obtain ⟨l', v', r', rfl, h1, h2⟩ := noLines_cons_eq he.symm
        have := textLike_noLines h1 (hp _ (.head _))
        rw [List.map_cons, List.map_cons, ih (P := r') (fun c hc => hP c (.tail _ hc)) h2.symm fun c hc => hp c (.tail _ hc)]
        simp [Chunk.variant, this]
    rw [← this]; exact h.1
  · intro hc
    rw [← paragraphs_text (l := 0) h.1 h.2, paragraphs_text hc rfl]

/-! ### runs of texts -/

theorem runs_texts {P : List Chunk} (h : ∀ c ∈ P, c.IsText) : Runs P ↔ Cut false (P.map Chunk.variant) := by
  constructor
  · intro hr
    exact hr [] P [] (by simp) h (by simp) (by simp)
  · rintro hc a run b rfl _ h2 h3
    have ha : a = [] := by
      rcases List.eq_nil_or_concat a with rfl | ⟨a', c, rfl⟩
      · rfl
      · rw [List.concat_eq_append] at *
        exact absurd (h c (by simp)) (h2 a' c rfl)
    have hb : b = [] := by
      cases b with
      | nil => rfl
      | cons c b => exact absurd (h c (by simp)) (h3 c b rfl)
    subst ha; subst hb
    simpa using hc

theorem runs_split {P rest : List Chunk} {c : Chunk} (h : ∀ c ∈ P, c.IsText) (hc : ¬ c.IsText) :
    Runs (P ++ c :: rest) ↔ Cut false (P.map Chunk.variant) ∧ Runs rest := by
  constructor
  · intro hr
    refine ⟨hr [] P (c :: rest) (by simp) h (by simp) ?_, ?_⟩
    · intro d b he; cases he; exact hc
    · rintro a run b rfl h1 h2 h3
      refine hr (P ++ c :: a) run b (by simp) h1 ?_ h3
      intro a' d he
      rcases List.eq_nil_or_concat a with rfl | ⟨a2, x, rfl⟩
      · obtain ⟨_, h⟩ := List.append_inj' he rfl
        cases h; exact hc
      · rw [List.concat_eq_append] at *
        have he : (P ++ c :: a2) ++ [x] = a' ++ [d] := by simpa using he
        obtain ⟨_, h⟩ := List.append_inj' he rfl
        cases h; exact h2 a2 _ rfl
  · rintro ⟨hP, hr⟩ a run b he h1 h2 h3
    rw [List.append_assoc] at he
    rcases List.append_eq_append_iff.1 he with ⟨a2, rfl, h4⟩ | ⟨P2, rfl, h4⟩
    · cases a2 with
      | nil =>
        rw [List.append_nil] at h2
        have hn : run = [] := by
          cases run with
          | nil => rfl
          | cons d run =>
            simp only [List.nil_append, List.cons_append, List.cons.injEq] at h4
            exact absurd (h1 d (.head _)) (h4.1 ▸ hc)
        subst hn
        exact .nil
      | cons d a2 =>
        simp only [List.cons_append, List.cons.injEq] at h4
        obtain ⟨rfl, rfl⟩ := h4
        refine hr a2 run b (by simp) h1 ?_ h3
        rintro a' x rfl
        exact h2 (P ++ c :: a') x (by simp)
    · have ha : a = [] := by
        rcases List.eq_nil_or_concat a with rfl | ⟨a', d, rfl⟩
        · rfl
        · rw [List.concat_eq_append] at *
          exact absurd (h d (by simp)) (h2 a' d rfl)
      subst ha
      have h5 : run = P2 := by
        have hP2 : ∀ d ∈ P2, d.IsText := fun d hd => h d (by simp [hd])
        clear hP h h2 he
        induction run generalizing P2 with
        | nil =>
          cases P2 with
          | nil => rfl
          | cons d P2 => exact absurd (hP2 d (.head _)) (h3 d _ h4)
        | cons d run ih =>
          cases P2 with
          | nil =>
            simp only [List.nil_append, List.cons_append, List.cons.injEq] at h4
            exact absurd (h1 d (.head _)) (h4.1 ▸ hc)
          | cons e P2 =>
            simp only [List.cons_append, List.cons.injEq] at h4
            rw [h4.1, ih (fun d hd => h1 d (.tail _ hd)) P2 h4.2 fun d hd => hP2 d (.tail _ hd)]
      rw [h5]; exact hP

theorem runs_others {ms P : List Chunk} (hm : ∀ c ∈ ms, ¬ c.IsText) (hP : ∀ c ∈ P, c.IsText) : Runs (ms ++ P) ↔ Cut false (P.map Chunk.variant) := by
  induction ms with
  | nil => exact runs_texts hP
  | cons c ms ih =>
    rw [← ih fun c hc => hm c (.tail _ hc)]
    have := runs_split (P := []) (rest := ms ++ P) (by simp) (hm c (.head _))
    simp only [List.nil_append, List.map_nil] at this
    rw [List.cons_append, this]
    exact ⟨fun h => h.2, fun h => ⟨.nil, h⟩⟩

/-! ### tidy -/

/-- What `Tidy` asks of a chunk. -/
def TidyChunk (c : Chunk) : Prop := ((∀ m, c.variant ≠ .mathsBlock m) → OnePiece [c]) ∧
  (∀ l k content, c = .mk l (.mathsBlock (.mk .brackets k content)) → Tidy content) ∧
  ∀ l k content, c = .mk l (.mathsBlock (.mk .dollars k content)) → Runs content ∧ OnePiece content

theorem tidy_iff {cs : List Chunk} : Tidy cs ↔ Runs cs ∧ ∀ c ∈ cs, TidyChunk c := by
  constructor
  · intro h
    cases h with
    | mk h1 h2 h3 h4 => exact ⟨h1, fun c hc => ⟨h2 c hc, by rintro l k content rfl; exact h3 l k content hc, by rintro l k content rfl; exact h4 l k content hc⟩⟩
  · rintro ⟨h1, h2⟩
    exact .mk h1 (fun c hc => (h2 c hc).1) (fun l k content hc => (h2 _ hc).2.1 l k content rfl) fun l k content hc => (h2 _ hc).2.2 l k content rfl

theorem tidyChunk_text {c : Chunk} (h : c.IsText) : TidyChunk c := by
  refine ⟨fun _ => everyDollars_text ?_, ?_, ?_⟩
  · intro v hv
    simp only [List.map_cons, List.map_nil, List.mem_singleton] at hv
    rw [hv]; exact h
  · rintro l k content rfl; rcases h with ⟨t, h⟩ | ⟨t, h⟩ <;> cases h
  · rintro l k content rfl; rcases h with ⟨t, h⟩ | ⟨t, h⟩ <;> cases h

theorem tidy_split {P rest : List Chunk} {c : Chunk} (h : ∀ c ∈ P, c.IsText) (hc : ¬ c.IsText) :
    Tidy (P ++ c :: rest) ↔ Cut false (P.map Chunk.variant) ∧ TidyChunk c ∧ Tidy rest := by
  rw [tidy_iff, tidy_iff, runs_split h hc]
  constructor
  · rintro ⟨⟨h1, h2⟩, h3⟩
    exact ⟨h1, h3 c (by simp), h2, fun d hd => h3 d (by simp [hd])⟩
  · rintro ⟨h1, h2, h3, h4⟩
    refine ⟨⟨h1, h3⟩, fun d hd => ?_⟩
    rcases List.mem_append.1 hd with hd | hd
    · exact tidyChunk_text (h d hd)
    · rcases List.mem_cons.1 hd with rfl | hd
      · exact h2
      · exact h4 d hd

theorem tidy_texts {P : List Chunk} (h : ∀ c ∈ P, c.IsText) : Tidy P ↔ Cut false (P.map Chunk.variant) := by
  rw [tidy_iff, runs_texts h]
  exact ⟨fun h => h.1, fun h1 => ⟨h1, fun c hc => tidyChunk_text (h c hc)⟩⟩

theorem tidyChunk_other {c : Chunk} (h : ∀ m, c.variant ≠ .mathsBlock m) : TidyChunk c ↔ OnePiece [c] := by
  constructor
  · intro hc; exact hc.1 h
  · intro hc
    exact ⟨fun _ => hc, by rintro l k content rfl; exact absurd rfl (h _), by rintro l k content rfl; exact absurd rfl (h _)⟩

theorem tidyChunk_brackets {l k content} : TidyChunk (.mk l (.mathsBlock (.mk .brackets k content))) ↔ Tidy content := by
  constructor
  · intro hc; exact hc.2.1 _ _ _ rfl
  · intro hc
    refine ⟨fun h => absurd rfl (h _), ?_, ?_⟩
    · intro l k c he; cases he; exact hc
    · intro l k c he; cases he

theorem tidyChunk_dollars {l k content} : TidyChunk (.mk l (.mathsBlock (.mk .dollars k content))) ↔ Runs content ∧ OnePiece content := by
  constructor
  · intro hc; exact hc.2.2 _ _ _ rfl
  · intro hc
    refine ⟨fun h => absurd rfl (h _), ?_, ?_⟩
    · intro l k c he; cases he
    · intro l k c he; cases he; exact hc

theorem maths_not_text {l m} : ¬ Chunk.IsText (.mk l (.mathsBlock m)) := by rintro (⟨t, h⟩ | ⟨t, h⟩) <;> cases h

theorem pieces_text {P : List Chunk} (h : ∀ c ∈ P, IsPiece c) : ∀ c ∈ P, c.IsText := fun c hc => piece_textLike (h c hc)

theorem resettles_other {c c' : Chunk} (n1 : ¬ c.IsText) (n2 : ∀ m, c.variant ≠ .mathsBlock m) (h : Resettles [c] [c']) :
    ¬ c'.IsText ∧ ∀ m, c'.variant ≠ .mathsBlock m := by
  generalize hx : [c'] = x at h
  cases h with
  | piece hp => exact absurd (piece_textLike hp) n1
  | command => cases hx; exact ⟨(by rintro (⟨t, h⟩ | ⟨t, h⟩) <;> cases h), (by intro m h; cases h)⟩
  | scope => cases hx; exact ⟨(by rintro (⟨t, h⟩ | ⟨t, h⟩) <;> cases h), (by intro m h; cases h)⟩
  | environment => cases hx; exact ⟨(by rintro (⟨t, h⟩ | ⟨t, h⟩) <;> cases h), (by intro m h; cases h)⟩
  | brackets => exact absurd rfl (n2 _)
  | plain => exact absurd rfl (n2 _)
  | dollars => exact absurd rfl (n2 _)

/-- What stays the same. -/
theorem Rejoins.same {p cs out} (h : Rejoins p cs out) : ∀ {P}, (∀ c ∈ P, IsPiece c) → displayChunks P = p →
    (noLines out = noLines (P ++ cs) ↔ Tidy (P ++ cs)) := by
  induction h with
  | nil hc =>
    rintro P hP rfl
    rw [List.append_nil, tidy_texts (pieces_text hP), hc.same hP]
  | @piece p c rest out hc _ ih =>
    rintro P hP rfl
    have e : P ++ c :: rest = (P ++ [c]) ++ rest := by simp
    rw [e]
    refine ih ?_ ?_
    · intro d hd
      rcases List.mem_append.1 hd with hd | hd
      · exact hP d hd
      · rw [List.mem_singleton.1 hd]; exact hc
    · obtain ⟨l, v⟩ := c
      simp [displayChunks, Chunk.display, Chunk.variant]
  | @other _ _ c _ _ _ hc n1 n2 n3 hr _ ih =>
    rintro P hP rfl
    have ih := ih (P := []) (by simp) rfl
    rw [List.nil_append] at ih
    have hn : ¬ c.IsText := by
      rintro (⟨t, h⟩ | ⟨t, h⟩)
      · exact n1 t h
      · exact n2 t h
    obtain ⟨h1, h2⟩ := resettles_other hn n3 hr
    rw [same_split hc.texts (pieces_text hP) h1 hn, tidy_split (pieces_text hP) hn, hc.same hP, tidyChunk_other n3, ← hr.same.2, ← ih]
  | brackets hc hw _ _ _ ih1 ih2 =>
    rintro P hP rfl
    have ih1 := ih1 (P := []) (by simp) rfl
    have ih2 := ih2 (P := []) (by simp) rfl
    rw [List.nil_append] at ih1 ih2
    rw [same_split hc.texts (pieces_text hP) maths_not_text maths_not_text, tidy_split (pieces_text hP) maths_not_text, hc.same hP, tidyChunk_brackets,
      ← ih1, ← ih2]
    simp [noLines, ChunkVariant.noLines, MathsBlock.noLines]
  | dollars hc ht hr hp _ hq _ ih =>
    rintro P hP rfl
    have ih := ih (P := []) (by simp) rfl
    rw [List.nil_append] at ih
    have m1 := textless_not_text ht
    have m2 := textless_not_text (resettles_textless hr ht)
    have e := two_split (P := fun c : Chunk => ¬ c.IsText) (fun a ha hn => hn (noLines_texts hq.texts a ha)) (fun a ha hn => hn (noLines_texts (pieces_text hp) a ha))
      (noLines_others m2) (noLines_others m1)
    have o := hr.same.2
    unfold OnePiece at o
    rw [same_split hc.texts (pieces_text hP) maths_not_text maths_not_text, tidy_split (pieces_text hP) maths_not_text, hc.same hP, tidyChunk_dollars,
      runs_others m1 (pieces_text hp), ← hq.same hp, OnePiece, everyDollars_append, ← o, ← ih]
    simp only [noLines, ChunkVariant.noLines, MathsBlock.noLines, noLines_append, e, List.nil_append, List.cons.injEq, Chunk.mk.injEq, true_and, and_true,
      ChunkVariant.mathsBlock.injEq, MathsBlock.mk.injEq]
    have := everyDollars_pieces (Q := TextOnlyLast) hp
    exact ⟨fun ⟨a, ⟨b, c⟩, d⟩ => ⟨a, ⟨c, b, this⟩, d⟩, fun ⟨a, ⟨c, b, _⟩, d⟩ => ⟨a, ⟨b, c⟩, d⟩⟩

/-- What comes back is tidy. -/
theorem Rejoins.tidy {p cs out} (h : Rejoins p cs out) : Tidy out := by
  induction h with
  | nil hc => exact (tidy_texts hc.texts).2 hc.1
  | piece _ _ ih => exact ih
  | other hc n1 n2 n3 hr _ ih =>
    obtain ⟨h1, h2⟩ := resettles_other (by rintro (⟨t, h⟩ | ⟨t, h⟩); exact n1 t h; exact n2 t h) n3 hr
    exact (tidy_split hc.texts h1).2 ⟨hc.1, (tidyChunk_other h2).2 hr.onePiece, ih⟩
  | brackets hc _ _ _ _ ih1 ih2 => exact (tidy_split hc.texts maths_not_text).2 ⟨hc.1, tidyChunk_brackets.2 ih1, ih2⟩
  | dollars hc ht hr hp _ hq _ ih =>
    refine (tidy_split hc.texts maths_not_text).2 ⟨hc.1, tidyChunk_dollars.2 ⟨?_, ?_⟩, ih⟩
    · exact (runs_others (textless_not_text (resettles_textless hr ht)) hq.texts).2 hq.1
    · exact everyDollars_append.2 ⟨hr.onePiece, everyDollars_text fun v hv => cut_textLike hq.1 v hv⟩

/-! ### lines do not matter -/

theorem texts_same {a b : List Chunk} (h : noLines a = noLines b) (hb : ∀ c ∈ b, c.IsText) : a.map Chunk.variant = b.map Chunk.variant := by
  induction a generalizing b with
  | nil =>
    have := congrArg List.length h
    rw [noLines_length, noLines_length] at this
    rw [List.length_eq_zero_iff.1 this.symm]
  | cons c a ih =>
    obtain ⟨l, v⟩ := c
    obtain ⟨l', v', r', rfl, h1, h2⟩ := noLines_cons_eq h.symm
    have := textLike_noLines h1.symm (hb _ (.head _))
    rw [List.map_cons, List.map_cons, ih h2.symm fun c hc => hb c (.tail _ hc)]
    simp [Chunk.variant, this]

theorem isText_same {l l' v v'} (h : v'.noLines = v.noLines) : Chunk.IsText (.mk l' v') ↔ Chunk.IsText (.mk l v) := textLike_same h

theorem runs_same {a b : List Chunk} (h : noLines a = noLines b) (ha : Runs a) : Runs b := by
  rintro x run y rfl h1 h2 h3
  obtain ⟨z, y', rfl, hz, hy⟩ := noLines_append_eq h
  obtain ⟨x', run', rfl, hx, hr⟩ := noLines_append_eq hz
  have hv := texts_same hr h1
  rw [← hv]
  have ht : ∀ c ∈ run', c.IsText := by
    intro c hc
    obtain ⟨d, hd, he⟩ := List.mem_map.1 (show c.variant ∈ run.map Chunk.variant from hv ▸ List.mem_map_of_mem hc)
    have := h1 d hd
    unfold Chunk.IsText at *
    rwa [← he]
  refine ha x' run' y' rfl ht ?_ ?_
  · rintro a' ⟨l, v⟩ rfl hc
    obtain ⟨a2, r, rfl, _, h5⟩ := noLines_append_eq hx.symm
    obtain ⟨l', v', r', rfl, h6, h7⟩ := noLines_cons_eq h5
    have : r' = [] := by
      have := congrArg List.length h7
      rw [noLines_length, noLines_length] at this
      exact List.length_eq_zero_iff.1 this
    subst this
    exact h2 a2 _ rfl ((isText_same h6).2 hc)
  · rintro ⟨l, v⟩ b' rfl hc
    obtain ⟨l', v', r', rfl, h6, h7⟩ := noLines_cons_eq hy.symm
    exact h3 _ _ rfl ((isText_same h6).2 hc)

theorem tidy_same {a : List Chunk} (ha : Tidy a) : ∀ {b}, noLines a = noLines b → Tidy b := by
  induction ha with
  | @mk a h1 h2 h3 h4 ih =>
    intro b h
    refine .mk (runs_same h h1) ?_ ?_ ?_
    · rintro ⟨l, v⟩ hc hm
      obtain ⟨l', v', h5, h6⟩ := mem_same h.symm hc
      refine onePiece_same (a := [.mk l' v']) (by simp [noLines, h6]) (h2 _ h5 ?_)
      rintro ⟨m1, m2, m3⟩ he
      simp only [Chunk.variant] at he
      subst he
      cases v <;> simp only [ChunkVariant.noLines, reduceCtorEq] at h6
      exact hm _ rfl
    · intro l k content hc
      obtain ⟨l', v', h5, h6⟩ := mem_same h.symm hc
      cases v' <;> simp only [ChunkVariant.noLines, reduceCtorEq, ChunkVariant.mathsBlock.injEq] at h6
      rename_i c
      obtain ⟨mv', mt', content'⟩ := c
      simp only [MathsBlock.noLines, MathsBlock.mk.injEq] at h6
      obtain ⟨rfl, rfl, h6⟩ := h6
      exact ih _ _ _ h5 h6
    · intro l k content hc
      obtain ⟨l', v', h5, h6⟩ := mem_same h.symm hc
      cases v' <;> simp only [ChunkVariant.noLines, reduceCtorEq, ChunkVariant.mathsBlock.injEq] at h6
      rename_i c
      obtain ⟨mv', mt', content'⟩ := c
      simp only [MathsBlock.noLines, MathsBlock.mk.injEq] at h6
      obtain ⟨rfl, rfl, h6⟩ := h6
      exact ⟨runs_same h6 (h4 _ _ _ h5).1, onePiece_same h6 (h4 _ _ _ h5).2⟩

end LatexAst.Ast3
