import Verif.Proofs.Retext3
import Verif.Props.Calm

/-!
# Editing the texts of a stage-3 document, 2
-/

namespace LatexAst.Ast2
open Spec

theorem retexted_append_eq {R : Str → Str → Prop} : ∀ {a b x : List Chunk}, Retexted R (a ++ b) x → ∃ a' b', x = a' ++ b' ∧ Retexted R a a' ∧ Retexted R b b'
  | [], b, x, h => ⟨[], x, rfl, by simp [Retexted], h⟩
  | .mk _ v :: a, b, [], h => by simp [Retexted] at h
  | .mk _ v :: a, b, .mk l' v' :: x, h => by
    simp only [List.cons_append, Retexted] at h
    obtain ⟨a', b', rfl, h1, h2⟩ := retexted_append_eq h.2
    exact ⟨.mk l' v' :: a', b', rfl, by simp only [Retexted]; exact ⟨h.1, h1⟩, h2⟩

theorem retexted_app {R : Str → Str → Prop} : ∀ {a b a' b' : List Chunk}, Retexted R a a' → Retexted R b b' → Retexted R (a ++ b) (a' ++ b')
  | [], b, [], b', _, h => h
  | .mk _ v :: a, b, .mk l' v' :: a', b', h, h2 => by
    simp only [List.cons_append, Retexted] at h ⊢
    exact ⟨h.1, retexted_app h.2 h2⟩
  | [], _, _ :: _, _, h, _ => by simp [Retexted] at h
  | .mk _ _ :: _, _, [], _, h, _ => by simp [Retexted] at h

/-- Each node of the second list is one of the first, edited. -/
theorem retexted_mem {R : Str → Str → Prop} : ∀ {a a' : List Chunk}, Retexted R a a' → ∀ l' v', .mk l' v' ∈ a' → ∃ l v, .mk l v ∈ a ∧ RetextedV R v v'
  | [], [], _, _, _, hm => by cases hm
  | .mk l v :: a, .mk l' v' :: a', h, m, w, hm => by
    simp only [Retexted] at h
    rcases List.mem_cons.1 hm with hm | hm
    · cases hm; exact ⟨l, v, .head _, h.1⟩
    · obtain ⟨l, v, h1, h2⟩ := retexted_mem h.2 m w hm
      exact ⟨l, v, .tail _ h1, h2⟩
  | [], _ :: _, h, _, _, _ => by simp [Retexted] at h
  | .mk _ _ :: _, [], h, _, _, _ => by simp [Retexted] at h

theorem retexted_isText {R : Str → Str → Prop} {v v' : ChunkVariant} (h : RetextedV R v v') : (∃ t, v = .text t) ↔ ∃ t, v' = .text t := by
  match v, v', h with
  | .text _, .text _, _ => simp
  | .scope (.mk ..), .scope (.mk ..), _ => simp
  | .command (.mk ..), .command (.mk ..), _ => simp
  | .environment (.mk ..), .environment (.mk ..), _ => simp
  | .text _, .scope (.mk ..), hr | .text _, .command (.mk ..), hr | .text _, .environment (.mk ..), hr => simp [RetextedV] at hr
  | .scope (.mk ..), .text _, hr | .scope (.mk ..), .command (.mk ..), hr | .scope (.mk ..), .environment (.mk ..), hr => simp [RetextedV] at hr
  | .command (.mk ..), .text _, hr | .command (.mk ..), .scope (.mk ..), hr | .command (.mk ..), .environment (.mk ..), hr => simp [RetextedV] at hr
  | .environment (.mk ..), .text _, hr | .environment (.mk ..), .scope (.mk ..), hr | .environment (.mk ..), .command (.mk ..), hr => simp [RetextedV] at hr

theorem retexted_command {R : Str → Str → Prop} {v : ChunkVariant} {label args'} (h : RetextedV R v (.command (.mk label args'))) :
    ∃ args, v = .command (.mk label args) ∧ RetextedArgs R args args' := by
  match v, h with
  | .text _, h | .scope (.mk ..), h | .environment (.mk ..), h => simp [RetextedV] at h
  | .command (.mk l a), h => simp only [RetextedV] at h; obtain ⟨rfl, h⟩ := h; exact ⟨a, rfl, h⟩

theorem retexted_environment {R : Str → Str → Prop} {v : ChunkVariant} {label args' c' pb pe} (h : RetextedV R v (.environment (.mk label args' c' pb pe))) :
    ∃ args c, v = .environment (.mk label args c pb pe) ∧ RetextedArgs R args args' ∧ Retexted R c c' := by
  match v, h with
  | .text _, h | .scope (.mk ..), h | .command (.mk ..), h => simp [RetextedV] at h
  | .environment (.mk l a c b e), h => simp only [RetextedV] at h; obtain ⟨rfl, h1, h2, rfl, rfl⟩ := h; exact ⟨a, c, rfl, h1, h2⟩

end LatexAst.Ast2

namespace LatexAst.Ast3
open Spec

/-- What is left of `Edits` when texts are joined. -/
structure EditsJ (t t' : Str) : Prop where
  empty : t' = [] ↔ t = []
  startsBlank : (∃ c r, t = c :: r ∧ isWhitespace c = true) → ∃ c r, t' = c :: r ∧ isWhitespace c = true
  blank : Blank t' → Blank t
  special : ∀ c ∈ t', Special c ∨ c = '$' → c ∈ t
  first : ∀ c r, t' = c :: r → Special c → ∃ c' r', t = c' :: r' ∧ Special c'

theorem Edits.joined {t t'} (h : Edits t t') : EditsJ t t' := ⟨h.empty, h.startsBlank.2, h.blank, h.special, h.first⟩

theorem EditsJ.replaces {t t'} (h : EditsJ t t') : Replaces t t' :=
  ⟨h.empty.1, h.startsBlank, fun hb => .inl (h.blank hb), fun c hc hs => h.special c hc (.inl hs), h.first⟩

theorem EditsJ.refl (t : Str) : EditsJ t t := ⟨Iff.rfl, id, id, fun _ h _ => h, fun c r h hs => ⟨c, r, h, hs⟩⟩

theorem Edits.refl (t : Str) : Edits t t := ⟨Iff.rfl, Iff.rfl, id, fun _ h _ => h, fun c r h hs => ⟨c, r, h, hs⟩, id, id⟩

theorem EditsBreak.joined {t t'} (h : EditsBreak t t') : EditsJ t t' := by
  rcases h with rfl | ⟨⟨⟨r, rfl⟩, h2, _⟩, ⟨r', rfl⟩, h3, _⟩
  · exact .refl _
  · refine ⟨by simp, fun _ => ⟨_, _, rfl, by decide⟩, fun _ => h2, fun c hc hs => ?_, fun c r h hs => ?_⟩
    · have := h3 c hc
      rcases hs with hs | rfl
      · exact absurd this (by revert hs; unfold Special; simp; rintro (rfl|rfl|rfl|rfl|rfl|rfl|rfl|rfl) <;> decide)
      · exact absurd this (by decide)
    · cases h; exact absurd hs (by decide)

theorem joinable_edits : Joinable EditsJ where
  empty h := h.empty.symm
  refl := EditsJ.refl
  append {t t' u u'} h1 h2 := by
    refine ⟨by rw [List.append_eq_nil_iff, List.append_eq_nil_iff, h1.empty, h2.empty], ?_, ?_, ?_, ?_⟩
    · rintro ⟨c, r, he, hc⟩
      cases t with
      | nil =>
        have := h1.empty.2 rfl; subst this
        exact h2.startsBlank ⟨c, r, he, hc⟩
      | cons a t =>
        simp only [List.cons_append, List.cons.injEq] at he
        obtain ⟨c', r', rfl, hc'⟩ := h1.startsBlank ⟨a, t, rfl, he.1 ▸ hc⟩
        exact ⟨c', r' ++ u', rfl, hc'⟩
    · intro hb c hc
      rcases List.mem_append.1 hc with hc | hc
      · exact h1.blank (fun c hc => hb c (List.mem_append_left _ hc)) c hc
      · exact h2.blank (fun c hc => hb c (List.mem_append_right _ hc)) c hc
    · intro c hc hs
      rcases List.mem_append.1 hc with hc | hc
      · exact List.mem_append_left _ (h1.special c hc hs)
      · exact List.mem_append_right _ (h2.special c hc hs)
    · intro c r he hs
      cases t' with
      | nil =>
        have := h1.empty.1 rfl; subst this
        exact h2.first c r he hs
      | cons a t' =>
        simp only [List.cons_append, List.cons.injEq] at he
        obtain ⟨c', r', rfl, hc'⟩ := h1.first a t' rfl (he.1 ▸ hs)
        exact ⟨c', r' ++ u, rfl, hc'⟩

/-- The second text has no more newlines. -/
def FewerLines (t t' : Str) : Prop := (t = [] ↔ t' = []) ∧ t'.count '\n' ≤ t.count '\n'

theorem joinable_fewer : Joinable FewerLines where
  empty h := h.1
  refl t := ⟨Iff.rfl, Nat.le_refl _⟩
  append h1 h2 := ⟨by rw [List.append_eq_nil_iff, List.append_eq_nil_iff, h1.1, h2.1], by
    rw [List.count_append, List.count_append]; exact Nat.add_le_add h1.2 h2.2⟩

theorem retexted_spelled {a a' : List Chunk} (h : Retexted Edits EditsBreak a a') : Ast2.Retexted EditsJ (spelled a) (spelled a') :=
  spelled_retexted joinable_edits (fun _ _ h => h.joined) (fun _ _ h => h.joined) h

/-! ### texts and breaks -/

theorem paragraph_edits {t t'} (h : Edits t t') (hp : IsParagraph t) : IsParagraph t' :=
  ⟨fun he => hp.1 (h.empty.1 he), fun hg => hp.2 (h.gap hg)⟩

theorem dark_edits {t t'} (h : Edits t t') (hp : StartsDark t) : StartsDark t' := by
  obtain ⟨c, r, rfl, hc⟩ := hp
  cases t' with
  | nil => cases h.empty.1 rfl
  | cons c' r' =>
    refine ⟨c', r', rfl, ?_⟩
    cases hw : isWhitespace c' with
    | false => rfl
    | true =>
      obtain ⟨_, _, he, hx⟩ := h.startsBlank.1 ⟨c', r', rfl, hw⟩
      cases he; rw [hc] at hx; cases hx

theorem break_edits {s s'} (h : EditsBreak s s') (hp : IsBreak s) : IsBreak s' := by
  rcases h with rfl | h
  · exact hp
  · exact h.2

theorem retextedV_text {R B : Str → Str → Prop} {t : Str} {v' : ChunkVariant} (h : RetextedV R B (.text t) v') : ∃ t', v' = .text t' ∧ R t t' := by
  match v', h with
  | .text t', h => simp only [RetextedV] at h; exact ⟨t', rfl, h⟩
  | .paragraphBreak _, h | .mathsBlock (.mk ..), h | .scope (.mk ..), h | .command (.mk ..), h | .environment (.mk ..), h => simp [RetextedV] at h

theorem retextedV_break {R B : Str → Str → Prop} {t : Str} {v' : ChunkVariant} (h : RetextedV R B (.paragraphBreak t) v') :
    ∃ t', v' = .paragraphBreak t' ∧ B t t' := by
  match v', h with
  | .paragraphBreak t', h => simp only [RetextedV] at h; exact ⟨t', rfl, h⟩
  | .text _, h | .mathsBlock (.mk ..), h | .scope (.mk ..), h | .command (.mk ..), h | .environment (.mk ..), h => simp [RetextedV] at h

theorem retextedV_maths {R B : Str → Str → Prop} {v k a} {v' : ChunkVariant} (h : RetextedV R B (.mathsBlock (.mk v k a)) v') :
    ∃ a', v' = .mathsBlock (.mk v k a') ∧ Retexted R B a a' := by
  match v', h with
  | .mathsBlock (.mk v' k' a'), h => simp only [RetextedV] at h; obtain ⟨rfl, rfl, g⟩ := h; exact ⟨a', rfl, g⟩
  | .text _, h | .paragraphBreak _, h | .scope (.mk ..), h | .command (.mk ..), h | .environment (.mk ..), h => simp [RetextedV] at h

theorem retextedV_scope {R B : Str → Str → Prop} {k a} {v' : ChunkVariant} (h : RetextedV R B (.scope (.mk a k)) v') :
    ∃ a', v' = .scope (.mk a' k) ∧ Retexted R B a a' := by
  match v', h with
  | .scope (.mk a' k'), h => simp only [RetextedV] at h; obtain ⟨rfl, g⟩ := h; exact ⟨a', rfl, g⟩
  | .text _, h | .paragraphBreak _, h | .mathsBlock (.mk ..), h | .command (.mk ..), h | .environment (.mk ..), h => simp [RetextedV] at h

theorem retextedV_command {R B : Str → Str → Prop} {l a} {v' : ChunkVariant} (h : RetextedV R B (.command (.mk l a)) v') :
    ∃ a', v' = .command (.mk l a') ∧ RetextedArgs R B a a' := by
  match v', h with
  | .command (.mk l' a'), h => simp only [RetextedV] at h; obtain ⟨rfl, g⟩ := h; exact ⟨a', rfl, g⟩
  | .text _, h | .paragraphBreak _, h | .mathsBlock (.mk ..), h | .scope (.mk ..), h | .environment (.mk ..), h => simp [RetextedV] at h

theorem retextedV_environment {R B : Str → Str → Prop} {l a c pb pe} {v' : ChunkVariant} (h : RetextedV R B (.environment (.mk l a c pb pe)) v') :
    ∃ a' c', v' = .environment (.mk l a' c' pb pe) ∧ RetextedArgs R B a a' ∧ Retexted R B c c' := by
  match v', h with
  | .environment (.mk l' a' c' pb' pe'), h => simp only [RetextedV] at h; obtain ⟨rfl, h1, h2, rfl, rfl⟩ := h; exact ⟨a', c', rfl, h1, h2⟩
  | .text _, h | .paragraphBreak _, h | .mathsBlock (.mk ..), h | .scope (.mk ..), h | .command (.mk ..), h => simp [RetextedV] at h

theorem retexted_nil {R B : Str → Str → Prop} {x : List Chunk} (h : Retexted R B [] x) : x = [] := by
  match x, h with
  | [], _ => rfl
  | _ :: _, h => simp [Retexted] at h

theorem retexted_cons {R B : Str → Str → Prop} {l v cs} {x : List Chunk} (h : Retexted R B (.mk l v :: cs) x) :
    ∃ l' v' cs', x = .mk l' v' :: cs' ∧ RetextedV R B v v' ∧ Retexted R B cs cs' := by
  match x, h with
  | [], h => simp [Retexted] at h
  | .mk l' v' :: cs', h => simp only [Retexted] at h; exact ⟨l', v', cs', rfl, h⟩

theorem retexted_append_eq {R B : Str → Str → Prop} : ∀ {a b x : List Chunk}, Retexted R B (a ++ b) x → ∃ a' b', x = a' ++ b' ∧ Retexted R B a a' ∧ Retexted R B b b'
  | [], b, x, h => ⟨[], x, rfl, by simp [Retexted], h⟩
  | .mk _ v :: a, b, x, h => by
    obtain ⟨l', v', x, rfl, h1, h2⟩ := retexted_cons h
    obtain ⟨a', b', rfl, h3, h4⟩ := retexted_append_eq h2
    exact ⟨.mk l' v' :: a', b', rfl, by simp only [Retexted]; exact ⟨h1, h3⟩, h4⟩

theorem retextedArgs_mem {R B : Str → Str → Prop} : ∀ {a a' : List (Str × Scope)}, RetextedArgs R B a a' → ∀ x' ∈ a', ∃ x ∈ a, Retexted R B x.2.chunks x'.2.chunks
  | [], [], _, x', hx => by cases hx
  | (p, .mk a v) :: r, (p', .mk a' v') :: r', h, x', hx => by
    simp only [RetextedArgs] at h
    rcases List.mem_cons.1 hx with rfl | hx
    · exact ⟨_, .head _, h.2.2.1⟩
    · obtain ⟨x, h1, h2⟩ := retextedArgs_mem h.2.2.2 x' hx
      exact ⟨x, .tail _ h1, h2⟩
  | [], _ :: _, h, _, _ => by simp [RetextedArgs] at h
  | (_, .mk ..) :: _, [], h, _, _ => by simp [RetextedArgs] at h

theorem cut_edits {b vs} (h : Cut b vs) : ∀ {pieces pieces' : List Chunk}, vs = pieces.map Chunk.variant → Retexted Edits EditsBreak pieces pieces' →
    Cut b (pieces'.map Chunk.variant) := by
  induction h with
  | nil =>
    intro p p' he hr
    cases p with
    | nil => rw [retexted_nil hr]; exact .nil
    | cons _ _ => cases he
  | last hp hd =>
    intro p p' he hr
    match p, he with
    | [.mk _ v], he =>
      simp only [List.map_cons, List.map_nil, Chunk.variant, List.cons.injEq, and_true] at he
      subst he
      obtain ⟨l', v', x, rfl, h1, h2⟩ := retexted_cons hr
      obtain ⟨t', rfl, h1⟩ := retextedV_text h1
      rw [retexted_nil h2]
      exact .last (paragraph_edits h1 hp) fun hb => dark_edits h1 (hd hb)
  | text hp hd hne hs _ ih =>
    intro p p' he hr
    match p, he with
    | .mk _ v :: .mk _ w :: p, he =>
      simp only [List.map_cons, Chunk.variant, List.cons.injEq] at he
      obtain ⟨rfl, rfl, he⟩ := he
      obtain ⟨l', v', x, rfl, h1, h2⟩ := retexted_cons hr
      obtain ⟨t', rfl, h1⟩ := retextedV_text h1
      obtain ⟨l', v', x, rfl, h3, h4⟩ := retexted_cons h2
      obtain ⟨s', rfl, h3⟩ := retextedV_break h3
      exact .text (paragraph_edits h1 hp) (fun hb => dark_edits h1 (hd hb)) (fun h => hne (h1.ends h)) (break_edits h3 hs) (ih he h4)
  | «break» hs _ ih =>
    intro p p' he hr
    match p, he with
    | .mk _ v :: p, he =>
      simp only [List.map_cons, Chunk.variant, List.cons.injEq] at he
      obtain ⟨rfl, he⟩ := he
      obtain ⟨l', v', x, rfl, h1, h2⟩ := retexted_cons hr
      obtain ⟨s', rfl, h1⟩ := retextedV_break h1
      exact .break (break_edits h1 hs) (ih he h2)

/-! ### what can be recognised still can -/

theorem dollar_edits {pieces pieces' : List Chunk} (hc : ∀ v ∈ pieces.map Chunk.variant, TextLike v) (hr : Retexted Edits EditsBreak pieces pieces')
    (hd : '$' ∉ displayChunks pieces) : '$' ∉ displayChunks pieces' := by
  induction pieces generalizing pieces' with
  | nil => rw [retexted_nil hr]; exact hd
  | cons c p ih =>
    obtain ⟨l, v⟩ := c
    obtain ⟨l', v', x, rfl, h1, h2⟩ := retexted_cons hr
    simp only [displayChunks, List.mem_append, not_or] at hd ⊢
    refine ⟨?_, ih (fun v hv => hc v (.tail _ hv)) h2 hd.2⟩
    rcases hc v (.head _) with ⟨t, rfl⟩ | ⟨t, rfl⟩
    · obtain ⟨t', rfl, h1⟩ := retextedV_text h1
      exact fun h => hd.1 (h1.special _ h (.inr rfl))
    · obtain ⟨t', rfl, h1⟩ := retextedV_break h1
      exact fun h => hd.1 (h1.joined.special _ h (.inr rfl))

theorem begins_edits {R B : Str → Str → Prop} {a a' : List Chunk} (hr : Retexted R B a a') (h : BeginsWithText a') : BeginsWithText a := by
  cases a with
  | nil => rw [retexted_nil hr] at h; exact h
  | cons c a =>
    obtain ⟨l, v⟩ := c
    obtain ⟨l', v', x, rfl, h1, h2⟩ := retexted_cons hr
    obtain ⟨l1, v1, r1, he, hv⟩ := h
    cases he
    refine ⟨l, v, a, rfl, ?_⟩
    match v, h1 with
    | .text t, _ => exact .inl ⟨t, rfl⟩
    | .paragraphBreak t, _ => exact .inr ⟨t, rfl⟩
    | .mathsBlock (.mk ..), h1 => obtain ⟨_, rfl, _⟩ := retextedV_maths h1; simp at hv
    | .scope (.mk ..), h1 => obtain ⟨_, rfl, _⟩ := retextedV_scope h1; simp at hv
    | .command (.mk ..), h1 => obtain ⟨_, rfl, _⟩ := retextedV_command h1; simp at hv
    | .environment (.mk ..), h1 => obtain ⟨_, _, rfl, _⟩ := retextedV_environment h1; simp at hv

theorem Recognisable.edited {a} (h : Recognisable a) : ∀ {a'}, Retexted Edits EditsBreak a a' → Recognisable a' := by
  induction h with
  | nil => intro a' hr; rw [retexted_nil hr]; exact .nil
  | run hc hd hb _ ih =>
    intro a' hr
    obtain ⟨p, r, rfl, h1, h2⟩ := retexted_append_eq hr
    exact .run (cut_edits hc rfl h1) (dollar_edits (cut_textLike hc) h1 hd) (fun h => hb (begins_edits h2 h)) (ih h2)
  | command hl _ _ ih1 ih2 =>
    intro a' hr
    obtain ⟨l', v', r, rfl, h1, h2⟩ := retexted_cons hr
    obtain ⟨args', rfl, g1⟩ := retextedV_command h1
    refine .command hl (fun x hx => ?_) (ih2 h2)
    obtain ⟨y, hy, h3⟩ := retextedArgs_mem g1 x hx
    exact ih1 y hy h3
  | scope _ _ ih1 ih2 =>
    intro a' hr
    obtain ⟨l', v', r, rfl, h1, h2⟩ := retexted_cons hr
    obtain ⟨inner', rfl, g1⟩ := retextedV_scope h1
    exact .scope (ih1 g1) (ih2 h2)
  | environment _ _ _ ih1 ih2 ih3 =>
    intro a' hr
    obtain ⟨l', v', r, rfl, h1, h2⟩ := retexted_cons hr
    obtain ⟨args', c', rfl, g1, h3⟩ := retextedV_environment h1
    refine .environment (fun x hx => ?_) (ih2 h3) (ih3 h2)
    obtain ⟨y, hy, h4⟩ := retextedArgs_mem g1 x hx
    exact ih1 y hy h4
  | brackets hn _ _ ih1 ih2 =>
    intro a' hr
    obtain ⟨l', v', r, rfl, h1, h2⟩ := retexted_cons hr
    obtain ⟨c', rfl, g1⟩ := retextedV_maths h1
    refine .brackets (fun c hc args => ?_) (ih1 g1) (ih2 h2)
    obtain ⟨l, v⟩ := c
    obtain ⟨l0, v0, h3, h4⟩ := Ast2.retexted_mem (retexted_spelled g1) l v hc
    refine ⟨?_, ?_⟩
    · rintro rfl
      obtain ⟨args0, rfl, _⟩ := Ast2.retexted_command h4
      exact (hn _ h3 args0).1 rfl
    · rintro rfl
      obtain ⟨args0, rfl, _⟩ := Ast2.retexted_command h4
      exact (hn _ h3 args0).2 rfl
  | @dollars l k content rest ms t hsp hm ht hk _ _ ih1 ih2 =>
    intro a' hr
    obtain ⟨l', v', r, rfl, h1, h2⟩ := retexted_cons hr
    obtain ⟨c', rfl, g1⟩ := retextedV_maths h1
    have h3 := retexted_spelled g1
    rw [hsp] at h3
    obtain ⟨ms', t', he, h4, h5⟩ := Ast2.retexted_append_eq h3
    have hm' : ∀ m ∈ ms', NotText m := by
      intro m hm1 u hu
      obtain ⟨l, v⟩ := m
      obtain ⟨l0, v0, h6, h7⟩ := Ast2.retexted_mem h4 l v hm1
      obtain ⟨u0, rfl⟩ := (Ast2.retexted_isText h7).2 ⟨u, hu⟩
      exact hm _ h6 u0 rfl
    have hne : k = .inline → c' ≠ [] := by
      rintro rfl rfl
      cases content with
      | nil => exact hk rfl rfl
      | cons c cs => obtain ⟨_, _⟩ := c; simp [Retexted] at g1
    unfold textIf2 at h5
    split at h5
    · match t', h5 with
      | [], _ => exact .dollars (t := []) (by rw [he]; simp [textIf2]) hm' (by simp) hne (ih1 g1) (ih2 h2)
      | _ :: _, h5 => simp [Ast2.Retexted] at h5
    · rename_i hte
      match t', h5 with
      | [.mk l0 (.text u)], h5 =>
        simp only [Ast2.Retexted, Ast2.RetextedV, and_true] at h5
        have h0 := noNumbers_spelled c'
        rw [he] at h0
        have hl0 : l0 = 0 := h0 (.mk l0 (.text u)) (by simp)
        subst hl0
        refine .dollars (t := u) ?_ hm' (fun h => ht (h5.special _ h (.inr rfl))) hne (ih1 g1) (ih2 h2)
        rw [he, textIf2, if_neg fun h => hte (h5.empty.1 h)]
      | [.mk _ (.scope (.mk ..))], h5 | [.mk _ (.command (.mk ..))], h5 | [.mk _ (.environment (.mk ..))], h5 => simp [Ast2.Retexted, Ast2.RetextedV] at h5
      | [], h5 | .mk _ _ :: .mk _ _ :: _, h5 => simp [Ast2.Retexted] at h5

end LatexAst.Ast3
