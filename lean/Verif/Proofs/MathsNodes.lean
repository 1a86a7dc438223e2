import Verif.Proofs.MathsFuel
import Verif.Proofs.Tree

/-!
# The nodes of the result of `MathsBlock::from_chunks`
-/

namespace LatexAst.Ast3
open Spec

/-- How a property of stage-2 nodes becomes one of stage-3 nodes. -/
structure Carries (K : Char → Prop) (P2 : Ast2.ChunkVariant → Prop) (P3 : ChunkVariant → Prop) : Prop where
  textIn : ∀ t, P2 (.text t) ↔ ∀ c ∈ t, K c
  scope : ∀ inner sv inner', P2 (.scope (.mk inner sv)) → P3 (.scope (.mk inner' sv))
  command : ∀ label args args', P2 (.command (.mk label args)) → ¬ IsMathsLabel label → P3 (.command (.mk label args'))
  environment : ∀ label args content pb pe args' content', P2 (.environment (.mk label args content pb pe)) →
    P3 (.environment (.mk label args' content' pb pe))
  maths : ∀ v t content, P3 (.mathsBlock (.mk v t content))
  textOut : ∀ t, (∀ c ∈ t, K c ∧ c ≠ '$') → IsParagraph t → P3 (.text t)
  breakOut : ∀ b, IsBreak b → (∀ c ∈ b, K c) → P3 (.paragraphBreak b)

/-- Chunks before splitting into paragraphs. -/
def Raw (K : Char → Prop) (P3 : ChunkVariant → Prop) (cs : List Chunk) : Prop :=
  ∀ l v, .mk l v ∈ cs → (∃ t, v = .text t ∧ ∀ c ∈ t, K c ∧ c ≠ '$') ∨ ((∀ t, v ≠ .text t) ∧ v.All P3)

theorem raw_append {K P3 a b} (h1 : Raw K P3 a) (h2 : Raw K P3 b) : Raw K P3 (a ++ b) := by
  intro l v h
  rcases List.mem_append.1 h with h | h
  · exact h1 l v h
  · exact h2 l v h

theorem raw_text {K P3 l t} (h : ∀ c ∈ t, K c ∧ c ≠ '$') : Raw K P3 [.mk l (.text t)] := by
  intro l v hm
  simp at hm
  obtain ⟨rfl, rfl⟩ := hm
  exact .inl ⟨t, rfl, h⟩

theorem raw_one {K P3 l} {v : ChunkVariant} (h : ∀ t, v ≠ .text t) (h2 : v.All P3) : Raw K P3 [.mk l v] := by
  intro l v hm
  simp at hm
  obtain ⟨rfl, rfl⟩ := hm
  exact .inr ⟨h, h2⟩

theorem raw_paragraphs {K P2 P3 cs} (hc : Carries K P2 P3) (h : Raw K P3 cs) : AllChunks P3 (paragraphs cs) := by
  rw [allChunks_iff_forall]
  rintro ⟨l, v⟩ hm
  obtain ⟨⟨l0, v0⟩, h1, h2⟩ := paragraphs_mem hm
  have hr := h l0 v0 h1
  have hin : ∀ t, v0 = .text t → ∀ x ∈ v.display, x ∈ t := by
    rintro t rfl x hx
    have := (paragraphChunk_text l0 t).2
    rw [← this]
    obtain ⟨a, b, he⟩ := List.append_of_mem h2
    rw [he, displayChunks_append, displayChunks]
    simp [Chunk.display, hx]
  rcases paragraphChunk_mem h2 with ⟨he, h3⟩ | ⟨_, t, he0, ⟨l', t', he, ht⟩ | ⟨l', b, he, hb⟩⟩
  · cases he
    rcases hr with ⟨t, rfl, _⟩ | ⟨_, hr⟩
    · exact absurd rfl (h3 t)
    · exact hr
  · cases he; cases he0
    rcases hr with ⟨t0, h4, h5⟩ | ⟨h4, _⟩
    · cases h4
      exact hc.textOut _ (fun c hx => h5 c (hin _ rfl c hx)) ht
    · exact absurd rfl (h4 _)
  · cases he; cases he0
    rcases hr with ⟨t0, h4, h5⟩ | ⟨h4, _⟩
    · cases h4
      exact hc.breakOut _ hb (fun c hx => (h5 c (hin _ rfl c hx)).1)
    · exact absurd rfl (h4 _)

theorem allChunks_paragraphs {K P2 P3 cs} (hc : Carries K P2 P3) (h : AllChunks P3 cs)
    (hsplit : paragraphs cs = cs) : AllChunks P3 (paragraphs cs) := hsplit.symm ▸ h

/-- The result of one level is already split. -/
theorem mathsFuel_split (n cs) : Post (mathsFuel n cs) (fun out => paragraphs out = out) (fun _ => True) := by
  cases n with
  | zero => trivial
  | succ n =>
    refine post_maths (fun _ _ => True) trivial ?_ (fun s _ _ => paragraphs_idem _) (fun _ _ _ => trivial)
    intro pre l v post s _ _
    cases stepMaths (mathsFuel n) s (.mk l v) <;> trivial

/-- The invariant of the chunk loop. -/
def NInv (K : Char → Prop) (P2 : Ast2.ChunkVariant → Prop) (P3 : ChunkVariant → Prop) (s : MState) : Prop :=
  Raw K P3 s.out ∧ Ast2.AllChunks P2 s.buffer

theorem pushStr_nodes {K P3} {t : TState} (h : Raw K P3 t.m.out) (ht : ∀ c ∈ t.textBuffer, K c ∧ c ≠ '$') :
    Raw K P3 t.pushStr.m.out := by
  unfold TState.pushStr
  split
  · exact h
  · exact raw_append h (raw_text ht)

theorem allChunks2_congr {P} {a b : List Ast2.Chunk} (h : a.map Ast2.Chunk.variant = b.map Ast2.Chunk.variant)
    (hb : Ast2.AllChunks P b) : Ast2.AllChunks P a := by
  induction a generalizing b with
  | nil => trivial
  | cons c a ih =>
    cases b with
    | nil => simp at h
    | cons c' b =>
      simp at h
      obtain ⟨l, v⟩ := c
      obtain ⟨l', v'⟩ := c'
      simp [Ast2.Chunk.variant] at h
      obtain ⟨rfl, h⟩ := h
      exact ⟨hb.1, ih h hb.2⟩

theorem mathsNodes {K P2 P3} (hc : Carries K P2 P3) : ∀ n cs, Ast2.AllChunks P2 cs →
    Post (mathsFuel n cs) (fun out => AllChunks P3 out ∧ paragraphs out = out) (fun _ => True) := by
  intro n
  induction n with
  | zero => intro cs _; trivial
  | succ n ih =>
    intro cs hcs
    refine post_maths (fun _ => NInv K P2 P3) ?_ ?_ ?_ (fun _ _ _ => trivial)
    · exact ⟨by simp [Raw, MState.init], trivial⟩
    · intro pre l v post s he ⟨ho, hb⟩
      have hv : v.All P2 := by
        rw [he, Ast2.allChunks_append] at hcs
        exact hcs.2.1
      have hbuf : NInv K P2 P3 (s.pushBuffer l v) :=
        ⟨ho, by rw [MState.pushBuffer, Ast2.allChunks_append]; exact ⟨hb, hv, trivial⟩⟩
      have hargs : ∀ args, Ast2.AllArgs P2 args →
          Post (tryArgs (mathsFuel n) args) (fun a => AllArgs P3 a) (fun _ => True) := by
        intro args ha
        refine post_args (Q := fun _ b => AllArgs P3 b) trivial ?_
        intro p inner sv r hmem
        have := (Ast2.allArgs_iff_forall _).1 ha _ hmem
        refine (ih inner this).mono ?_ fun _ h => h
        rintro out ⟨h1, h2⟩ r' hr
        exact ⟨by rw [h2]; exact h1, hr⟩
      refine post_step ?_ ?_ ?_ ?_ ?_
      · rintro ⟨label, args⟩ rfl
        refine post_command ?_ ?_ ?_ ?_ ?_ ?_ ?_ ?_
        · intros; trivial
        · intros; exact ⟨ho, hb⟩
        · intros; exact ⟨ho, hb⟩
        · intro k hm hl hd
          refine (ih s.buffer hb).mono ?_ fun _ h => h
          rintro content ⟨h1, h2⟩
          exact ⟨raw_append ho (raw_one (by simp) ⟨hc.maths _ _ _, h1⟩), trivial⟩
        · intros; trivial
        · intros; exact ⟨ho, hb⟩
        · intro hm hl
          refine post_tryCommand ?_
          refine (hargs args hv.2).mono ?_ fun _ h => h
          intro a ha
          exact ⟨raw_append ho (raw_one (by simp) ⟨hc.command _ _ _ hv.1 hl, ha⟩), hb⟩
        · intros; exact hbuf
      · rintro ⟨inner, sv⟩ rfl hm
        refine post_tryScope ?_
        refine (ih inner hv.2).mono ?_ fun _ h => h
        rintro out ⟨h1, h2⟩
        exact ⟨raw_append ho (raw_one (by simp) ⟨hc.scope _ _ _ hv.1, by rw [Scope.All, h2]; exact h1⟩), hb⟩
      · rintro ⟨label, args, content, pb, pe⟩ rfl hm
        refine post_tryEnvironment ?_
        refine (hargs args hv.2.1).mono ?_ fun _ h => h
        intro a ha
        refine (ih content hv.2.2).mono ?_ fun _ h => h
        rintro out ⟨h1, h2⟩
        exact ⟨raw_append ho (raw_one (by simp) ⟨hc.environment _ _ _ _ _ _ _ hv.1,
          by rw [Environment.All, h2]; exact ⟨ha, h1⟩⟩), hb⟩
      · intros; exact hbuf
      · rintro str rfl hbr
        have hstr := (hc.textIn str).1 hv
        refine post_text (fun _ t => NInv K P2 P3 t.m ∧ ∀ c ∈ t.textBuffer, K c ∧ c ≠ '$') ⟨⟨ho, hb⟩, by simp⟩ ?_ ?_
        · rintro p c q t hstr' ⟨⟨ht1, ht2⟩, ht3⟩
          have hkc : K c := hstr c (by simp [hstr'])
          unfold stepChar
          generalize ht' : (if c = '\n' then { t with cursorLine := t.cursorLine + 1 } else t : TState) = t'
          have hm' : t'.m = t.m := by subst ht'; split <;> rfl
          have hb' : t'.textBuffer = t.textBuffer := by subst ht'; split <;> rfl
          rw [← hm'] at ht1 ht2
          rw [← hb'] at ht3
          simp only
          split
          · have hclose : ∀ type, Post (closeDollars (mathsFuel n) t' type)
                (fun t => NInv K P2 P3 t.m ∧ ∀ c ∈ t.textBuffer, K c ∧ c ≠ '$') (fun _ => True) := by
              intro type
              refine post_closeDollars ?_
              refine post_rebase (fun _ => trivial) ?_
              intro buf' h1 _
              refine (ih buf' ?_).mono ?_ fun _ h => h
              · refine allChunks2_congr h1 ?_
                split
                · exact ht2
                · rw [Ast2.allChunks_append]
                  exact ⟨ht2, (hc.textIn _).2 (fun c h => (ht3 c h).1), trivial⟩
              · rintro content ⟨h1, h2⟩
                exact ⟨⟨raw_append ht1 (raw_one (by simp) ⟨hc.maths _ _ _, h1⟩), trivial⟩, by simp⟩
            refine post_dollar ?_ ?_ ?_ ?_ ?_ ?_
            · intro hm
              obtain ⟨e1, e2, e3, e4, e5, e6⟩ := pushStr_m t'
              exact ⟨⟨pushStr_nodes ht1 ht3, by rw [e3]; exact ht2⟩, by simp [e6]⟩
            · intros; exact ⟨⟨ht1, ht2⟩, ht3⟩
            · intro hm _; exact hclose _
            · intros; exact ⟨⟨ht1, ht2⟩, ht3⟩
            · intro hm; exact hclose _
            · intros; exact ⟨⟨ht1, ht2⟩, ht3⟩
          · rename_i hne
            refine ⟨⟨ht1, ht2⟩, ?_⟩
            intro x hx
            rcases List.mem_append.1 hx with hx | hx
            · exact ht3 x hx
            · simp at hx; subst hx; exact ⟨hkc, hne⟩
        · rintro t ⟨⟨ht1, ht2⟩, ht3⟩
          obtain ⟨e1, e2, e3, e4, e5, e6⟩ := pushStr_m t
          exact ⟨pushStr_nodes ht1 ht3, by rw [e3]; exact ht2⟩
    · rintro s ⟨ho, _⟩ _
      exact ⟨raw_paragraphs hc ho, paragraphs_idem _⟩

end LatexAst.Ast3
