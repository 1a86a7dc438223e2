import Verif.Proofs.DocumentRule
import Verif.Proofs.Errors3
import Verif.Props.BackRule
import Verif.Props.MathsRule
import Verif.Props.DocumentRule

/-! Stage 3 back to stage 1. -/

namespace LatexAst.Ast2
open Spec

/-- The label is read as itself. -/
def LabelOk (label : Str) : Prop := ∃ cs, Ast1.fromStr label = .ok cs ∧ Ast1.displayChunks cs = label

/-- A chunk that unfolds, `k` lines further down. -/
inductive GoodC : Nat → Chunk → Prop
  | text {k l t} : GoodC k (.mk l (.text t))
  | scope {k l inner sv} : (∀ c ∈ inner, GoodC 0 c) → GoodC k (.mk l (.scope (.mk inner sv)))
  | command {k l label args} : (∀ x ∈ args, ∀ c ∈ Scope.chunks x.2, GoodC 0 c) → GoodC k (.mk l (.command (.mk label args)))
  | environment {k l label args content pb pe} : LabelOk label → (∀ x ∈ args, ∀ c ∈ Scope.chunks x.2, GoodC 0 c) →
      (content ≠ [] → 1 ≤ l + k) → (∀ c ∈ content, GoodC (l + k - 1) c) →
      GoodC k (.mk l (.environment (.mk label args content pb pe)))

theorem GoodC.mono {k c} (h : GoodC k c) : ∀ k', k ≤ k' → GoodC k' c := by
  induction h with
  | text => intro k' _; exact .text
  | scope h _ => intro k' _; exact .scope h
  | command h _ => intro k' _; exact .command h
  | environment h1 h2 h3 h4 _ ih =>
    intro k' hk
    exact .environment h1 h2 (fun h => by have := h3 h; omega) fun c hc => ih c hc _ (by omega)

theorem GoodC.shift {k j c} (h : GoodC (k + j) c) : GoodC k (c.shift j) := by
  obtain ⟨l, v⟩ := c
  cases h with
  | text => exact .text
  | scope h => exact .scope h
  | command h => exact .command h
  | environment h1 h2 h3 h4 =>
    refine .environment h1 h2 (fun h => by have := h3 h; omega) fun c hc => ?_
    have := h4 c hc
    rwa [show l + (k + j) = l + j + k by omega] at this

mutual
theorem Chunk.into_good : ∀ (c : Chunk) (k : Nat), GoodC k c →
    ∃ xs, intoVariant (c.lineNo + k) c.variant = .ok xs ∧ Ast1.displayChunks xs = c.display
  | .mk l (.text t), k, _ => ⟨_, by simp only [Chunk.variant, intoVariant]; rfl, by
      simp [Ast1.displayChunks, Ast1.Chunk.display, Ast1.ChunkVariant.display, Chunk.display, ChunkVariant.display]⟩
  | .mk l (.scope (.mk inner sv)), k, h => by
    have hi : ∀ c ∈ inner, GoodC 0 c := by cases h; assumption
    obtain ⟨xs, h1, h2⟩ := into_good inner 0 hi
    refine ⟨_, by simp only [Chunk.variant, intoVariant, intoScope, h1]; rfl, ?_⟩
    simp [Ast1.displayChunks, Ast1.Chunk.display, Ast1.ChunkVariant.display, Chunk.display, ChunkVariant.display, Scope.display, Ast1.Scope.display, h2]
  | .mk l (.command (.mk label args)), k, h => by
    have ha : ∀ x ∈ args, ∀ c ∈ Scope.chunks x.2, GoodC 0 c := by cases h; assumption
    obtain ⟨xs, h1, h2⟩ := into_args_good args ha
    refine ⟨_, by simp only [Chunk.variant, intoVariant, intoCommand, h1]; rfl, ?_⟩
    simp [Ast1.displayChunks, Ast1.Chunk.display, Ast1.ChunkVariant.display, Chunk.display, ChunkVariant.display, Command.display, Ast1.Command.display, h2]
  | .mk l (.environment (.mk label args content pb pe)), k, h => by
    have hh : LabelOk label ∧ (∀ x ∈ args, ∀ c ∈ Scope.chunks x.2, GoodC 0 c) ∧ (content ≠ [] → 1 ≤ l + k) ∧
        ∀ c ∈ content, GoodC (l + k - 1) c := by
      cases h with
      | environment h1 h2 h3 h4 => exact ⟨h1, h2, h3, h4⟩
    obtain ⟨⟨cs, hcs, hlab⟩, ha, hl, hc⟩ := hh
    obtain ⟨as, h1, h2⟩ := into_args_good args ha
    obtain ⟨ys, h3, h4⟩ := into_good content (l + k - 1) hc
    refine ⟨_, by
      simp only [Chunk.variant, Chunk.lineNo, intoVariant, intoEnvironment, h1, h3, hcs]
      rw [if_neg]
      rintro ⟨h5, h6⟩
      have := hl (by intro h; simp [h] at h5)
      omega, ?_⟩
    simp [Ast1.displayChunks, Ast1.Chunk.display, Ast1.ChunkVariant.display, Chunk.display, ChunkVariant.display, Environment.display, Ast1.Command.display, Ast1.displayArgs, Ast1.Scope.display, h2, h4, hlab, ScopeVariant.opening, ScopeVariant.closing]
theorem into_good : ∀ (cs : List Chunk) (k : Nat), (∀ c ∈ cs, GoodC k c) →
    ∃ xs, intoChunks k cs = .ok xs ∧ Ast1.displayChunks xs = displayChunks cs
  | [], k, _ => ⟨[], rfl, rfl⟩
  | .mk l v :: cs, k, h => by
    obtain ⟨xs, h1, h2⟩ := Chunk.into_good (.mk l v) k (h _ (.head _))
    obtain ⟨ys, h3, h4⟩ := into_good cs k fun c hc => h c (.tail _ hc)
    simp only [Chunk.lineNo, Chunk.variant] at h1
    exact ⟨xs ++ ys, by simp [intoChunks, h1, h3], by simp [displayChunks_cons, h2, h4]⟩
theorem into_args_good : ∀ (args : List (Str × Scope)), (∀ x ∈ args, ∀ c ∈ Scope.chunks x.2, GoodC 0 c) →
    ∃ xs, intoArgs args = .ok xs ∧ Ast1.displayArgs xs = displayArgs args
  | [], _ => ⟨[], rfl, rfl⟩
  | (p, .mk inner sv) :: r, h => by
    obtain ⟨xs, h1, h2⟩ := into_good inner 0 (h _ (.head _))
    obtain ⟨ys, h3, h4⟩ := into_args_good r fun x hx => h x (.tail _ hx)
    refine ⟨(p, .mk xs sv) :: ys, by simp [intoArgs, intoScope, h1, h3], ?_⟩
    simp [displayArgs, Ast1.displayArgs, Scope.display, Ast1.Scope.display, h2, h4]
end

theorem toAst1_good {e : Document} (h : ∀ c ∈ e, GoodC 0 c) : ∃ d, toAst1 e = .ok d ∧ Ast1.displayChunks d = displayChunks e := by
  obtain ⟨xs, h1, h2⟩ := into_good e 0 h
  refine ⟨_, toAst1_eq h1, ?_⟩
  rw [foldl_push_display, h2]; simp [Ast1.displayChunks]

mutual
theorem Chunk.good_of : ∀ (c : Chunk), EnvsAll [c] → ∀ k, GoodC k c
  | .mk l (.text t), _, k => .text
  | .mk l (.scope (.mk inner sv)), h, k =>
    .scope (good_of inner (envsAll_child h (.scope (List.mem_singleton.2 rfl))) 0)
  | .mk l (.command (.mk label args)), h, k =>
    .command (good_of_args args fun p i s hm => envsAll_child h (.arg (List.mem_singleton.2 rfl) hm))
  | .mk l (.environment (.mk label args content pb pe)), h, k => by
    obtain ⟨hl, hlab⟩ := h _ .top l label args content pb pe (List.mem_singleton.2 rfl)
    exact .environment hlab (good_of_args args fun p i s hm => envsAll_child h (.envArg (List.mem_singleton.2 rfl) hm))
      (fun _ => by omega) (good_of content (envsAll_child h (.envContent (List.mem_singleton.2 rfl))) _)
theorem good_of : ∀ (cs : List Chunk), EnvsAll cs → ∀ k, ∀ c ∈ cs, GoodC k c
  | [], _, _ => by simp
  | c :: cs, h, k => by
    have h1 := Chunk.good_of c (envsAll_sub h (by simp)) k
    have h2 := good_of cs (envsAll_sub h (by intro c hc; simp [hc])) k
    intro x hx
    rcases List.mem_cons.1 hx with rfl | hx
    · exact h1
    · exact h2 x hx
theorem good_of_args : ∀ (args : List (Str × Scope)), (∀ p inner sv, (p, Scope.mk inner sv) ∈ args → EnvsAll inner) →
    ∀ x ∈ args, ∀ c ∈ Scope.chunks x.2, GoodC 0 c
  | [], _ => by simp
  | (p, .mk inner sv) :: r, h => by
    have h1 := good_of inner (h p inner sv (by simp)) 0
    have h2 := good_of_args r fun p i s hm => h p i s (by simp [hm])
    intro x hx
    rcases List.mem_cons.1 hx with rfl | hx
    · exact h1
    · exact h2 x hx
end

/-- The environments of a parsed document. -/
theorem envsAll_parsed {s e} (h : fromStr s = .ok e) : EnvsAll e := by
  have h0 := h
  unfold fromStr at h
  cases hd : Ast1.fromStr s with
  | error f => rw [hd] at h; cases h
  | ok d =>
    rw [hd] at h
    have hall : AllChunks (fun v => ∀ label args content pb pe, v = .environment (.mk label args content pb pe) → LabelOk label) e := by
      refine carry_tryFrom (P1 := fun v => ∀ label args p lab, v = .command (.mk label args) → (p, Ast1.Scope.mk lab .curly) ∈ args →
          LabelOk (Ast1.displayChunks lab)) ⟨?_, ?_, ?_, ?_⟩ h ?_
      · intro t _ _ _ _ _ _ h; cases h
      · intro _ _ _ _ _ _ _ _ _ h; cases h
      · intro _ _ _ _ _ _ _ _ _ _ _ _ h; cases h
      · intro p lab args p' args' content h1 _ _ label args'' content' pb pe h
        cases h
        exact h1 _ _ _ _ rfl (.head _)
      · rw [Ast1.allChunks_iff]
        rintro v hw label args p lab rfl hm
        obtain ⟨lv, l, hl, hm'⟩ := Ast1.within_level hw
        exact ⟨lab, label_reads hd hl hm' hm, rfl⟩
    intro lv hl l label args content pb pe hm
    exact ⟨(level_lines h0 hl hm).1, (allChunks_iff e).1 hall _ (level_within hl hm) label args content pb pe rfl⟩

theorem good_join (k : Nat) : ∀ cs : List Chunk, (∀ c ∈ cs, GoodC k c) → ∀ c ∈ joinTexts cs, GoodC k c := by
  intro cs
  induction cs with
  | nil => intro _ c hc; cases hc
  | cons c cs ih =>
    intro h
    have ih := ih fun c hc => h c (.tail _ hc)
    obtain ⟨l, v⟩ := c
    intro x hx
    cases v with
    | text t =>
      simp only [joinTexts] at hx
      split at hx
      · rename_i l' t' r' he
        rcases List.mem_cons.1 hx with rfl | hx
        · exact .text
        · exact ih x (by rw [he]; exact .tail _ hx)
      · rcases List.mem_cons.1 hx with rfl | hx
        · exact .text
        · exact ih x hx
    | _ =>
      simp only [joinTexts] at hx
      rcases List.mem_cons.1 hx with rfl | hx
      · exact h _ (.head _)
      · exact ih x hx

theorem unfolds_env {a l label args content pb pe b xs} (h : Unfolds (a ++ .mk l (.environment (.mk label args content pb pe)) :: b) xs)
    (hc : content ≠ []) : 1 ≤ l := by
  induction a generalizing xs with
  | nil =>
    generalize hg : ([] : List Chunk) ++ .mk l (.environment (.mk label args content pb pe)) :: b = g at h
    cases h with
    | environment _ _ h3 => simp at hg; obtain ⟨⟨rfl, _, _, rfl, _⟩, _⟩ := hg; exact h3 hc
    | _ => simp at hg
  | cons c a ih =>
    rw [List.cons_append] at h
    cases h with
    | text h => exact ih h
    | scope _ h => exact ih h
    | command _ h => exact ih h
    | environment _ _ _ _ h _ => exact ih h

end LatexAst.Ast2

namespace LatexAst.Ast3
open Spec
open Ast2 (LabelOk)

/-- A chunk that unfolds twice, `k` lines further down. -/
inductive GoodC : Nat → Chunk → Prop
  | text {k l t} : GoodC k (.mk l (.text t))
  | «break» {k l t} : GoodC k (.mk l (.paragraphBreak t))
  | scope {k l inner sv} : (∀ c ∈ inner, GoodC 0 c) → GoodC k (.mk l (.scope (.mk inner sv)))
  | command {k l label args} : (∀ x ∈ args, ∀ c ∈ Scope.chunks x.2, GoodC 0 c) → GoodC k (.mk l (.command (.mk label args)))
  | environment {k l label args content pb pe} : LabelOk label → (∀ x ∈ args, ∀ c ∈ Scope.chunks x.2, GoodC 0 c) →
      (content ≠ [] → 1 ≤ l + k) → (∀ c ∈ content, GoodC (l + k - 1) c) →
      GoodC k (.mk l (.environment (.mk label args content pb pe)))
  | maths {k l v t content} : (∀ c ∈ content, GoodC (l - 1 + k) c) → GoodC k (.mk l (.mathsBlock (.mk v t content)))

theorem good_delimited {k v t n cs block} (h : Delimited v t n cs block) (hc : ∀ c ∈ cs, Ast2.GoodC k c) : ∀ c ∈ block, Ast2.GoodC k c := by
  have hopen : ∀ {δ cs ds}, OpensWith δ cs ds → (∀ c ∈ cs, Ast2.GoodC k c) → ∀ c ∈ ds, Ast2.GoodC k c := by
    intro δ cs ds h hc c hm
    cases h with
    | text =>
      rcases List.mem_cons.1 hm with rfl | hm
      · exact .text
      · exact hc _ (.tail _ hm)
    | other _ =>
      rcases List.mem_cons.1 hm with rfl | hm
      · exact .text
      · exact hc _ hm
  have hclose : ∀ {δ n cs ds}, ClosesWith δ n cs ds → (∀ c ∈ cs, Ast2.GoodC k c) → ∀ c ∈ ds, Ast2.GoodC k c := by
    intro δ n cs ds h hc c hm
    cases h with
    | text =>
      rw [List.mem_append, List.mem_singleton] at hm
      rcases hm with hm | rfl
      · exact hc _ (by simp [hm])
      · exact .text
    | other _ =>
      rw [List.mem_append, List.mem_singleton] at hm
      rcases hm with hm | rfl
      · exact hc _ hm
      · exact .text
  have hcmd : ∀ l label, Ast2.GoodC k (.mk l (.command (.mk label []))) := fun l label => .command (by simp)
  intro c hm
  cases h with
  | round =>
    simp at hm
    rcases hm with rfl | hm | rfl
    · exact hcmd _ _
    · exact hc _ hm
    · exact hcmd _ _
  | square =>
    simp at hm
    rcases hm with rfl | hm | rfl
    · exact hcmd _ _
    · exact hc _ hm
    · exact hcmd _ _
  | emptyDollar => simp at hm; subst hm; exact .text
  | emptyDollars => simp at hm; subst hm; exact .text
  | dollar _ h1 h2 => exact hclose h2 (hopen h1 hc) c hm
  | dollars _ h1 h2 => exact hclose h2 (hopen h1 hc) c hm

theorem good_withInner2 {items : List ((Str × Scope) × List Ast2.Chunk)} (h : ∀ x ∈ items, ∀ c ∈ x.2, Ast2.GoodC 0 c) :
    ∀ x ∈ withInner2 items, ∀ c ∈ Ast2.Scope.chunks x.2, Ast2.GoodC 0 c := by
  induction items with
  | nil => simp [withInner2]
  | cons y r ih =>
    obtain ⟨⟨p, sc⟩, cs⟩ := y
    intro x hx
    rw [withInner2] at hx
    rcases List.mem_cons.1 hx with rfl | hx
    · exact h _ (.head _)
    · exact ih (fun x hx => h x (.tail _ hx)) x hx

/-- The stage-2 chunks of good chunks are good. -/
theorem good_unfolds {cs out} (h : Unfolds cs out) : ∀ k, (∀ c ∈ cs, GoodC k c) → ∀ c ∈ out, Ast2.GoodC k c := by
  induction h with
  | nil => intro k _ c hc; cases hc
  | text _ ih =>
    intro k h c hc
    rcases List.mem_cons.1 hc with rfl | hc
    · exact .text
    · exact ih k (fun c hc => h c (.tail _ hc)) c hc
  | «break» _ ih =>
    intro k h c hc
    rcases List.mem_cons.1 hc with rfl | hc
    · exact .text
    · exact ih k (fun c hc => h c (.tail _ hc)) c hc
  | scope _ _ ih1 ih2 =>
    intro k h c hc
    rcases List.mem_cons.1 hc with rfl | hc
    · have := h _ (.head _)
      cases this with
      | scope h => exact .scope (ih1 0 h)
    · exact ih2 k (fun c hc => h c (.tail _ hc)) c hc
  | command _ _ ih1 ih2 =>
    intro k h c hc
    rcases List.mem_cons.1 hc with rfl | hc
    · have := h _ (.head _)
      cases this with
      | command h => exact .command (good_withInner2 fun x hx => ih1 x hx 0 (h x.1 (List.mem_map_of_mem hx)))
    · exact ih2 k (fun c hc => h c (.tail _ hc)) c hc
  | @environment l label content content' pb pe cs ds items h0 hu _ ih1 ih2 ih3 =>
    intro k h c hc
    rcases List.mem_cons.1 hc with rfl | hc
    · have := h _ (.head _)
      cases this with
      | environment h1 h2 h3 h4 =>
        refine .environment h1 (good_withInner2 fun x hx => ih1 x hx 0 (h2 x.1 (List.mem_map_of_mem hx))) ?_ (ih2 _ h4)
        intro hne
        refine h3 ?_
        rintro rfl
        cases hu
        exact hne rfl
    · exact ih3 k (fun c hc => h c (.tail _ hc)) c hc
  | @maths l v t content content' block cs ds hl _ hd _ ih1 ih2 =>
    intro k h c hc
    rw [List.mem_append] at hc
    rcases hc with hc | hc
    · have := h _ (.head _)
      cases this with
      | maths h =>
        obtain ⟨c0, hc0, rfl⟩ := List.mem_map.1 hc
        refine Ast2.GoodC.shift ?_
        rw [Nat.add_comm]
        exact good_delimited hd (ih1 _ h) c0 hc0
    · exact ih2 k (fun c hc => h c (.tail _ hc)) c hc

theorem good_paragraphs {k cs} (h : ∀ c ∈ cs, GoodC k c) : ∀ c ∈ paragraphs cs, GoodC k c := by
  intro c hc
  obtain ⟨c0, h1, h2⟩ := paragraphs_mem hc
  rcases paragraphChunk_mem h2 with ⟨rfl, _⟩ | ⟨_, _, _, ⟨_, _, rfl, _⟩ | ⟨_, _, rfl, _⟩⟩
  · exact h _ h1
  · exact .text
  · exact .break

theorem good_textIf {k l t} : ∀ c ∈ textIf l t, GoodC k c := by
  intro c hc
  unfold textIf at hc
  split at hc
  · cases hc
  · simp at hc; subst hc; exact .text

theorem good_textIf2 {k l t} : ∀ c ∈ textIf2 l t, Ast2.GoodC k c := by
  intro c hc
  unfold textIf2 at hc
  split at hc
  · cases hc
  · simp at hc; subst hc; exact .text

theorem good_toDollar {k p lost kept p'} (h : ToDollar p lost kept p') (hr : ∀ c ∈ p.rest, Ast2.GoodC k c) :
    (∀ c ∈ lost, GoodC k c) ∧ (∀ c ∈ kept, Ast2.GoodC k c) ∧ (∀ c ∈ p'.rest, Ast2.GoodC k c) := by
  induction h with
  | here => exact ⟨by simp, by simp, hr⟩
  | @later l q x ms l' t rest lost kept p hx hms _ ih =>
    obtain ⟨h1, h2, h3⟩ := ih fun c hc => hr c (by simp only [List.mem_append, List.mem_cons]; exact .inr (.inr hc))
    refine ⟨?_, ?_, h3⟩
    · intro c hc
      rw [List.mem_append] at hc
      rcases hc with hc | hc
      · exact good_textIf c hc
      · exact h1 c hc
    · intro c hc
      rw [List.mem_append] at hc
      rcases hc with hc | hc
      · exact hr c (by simp only [List.mem_append]; exact .inl hc)
      · exact h2 c hc

theorem good_formula {k p lost type content p'} (h : Formula p lost type content p') (hr : ∀ c ∈ p.rest, Ast2.GoodC k c) :
    (∀ c ∈ lost, GoodC k c) ∧ (∀ c ∈ content, Ast2.GoodC k c) ∧ (∀ c ∈ p'.rest, Ast2.GoodC k c) := by
  cases h with
  | inline h _ =>
    obtain ⟨h1, h2, h3⟩ := good_toDollar h hr
    refine ⟨h1, ?_, h3⟩
    intro c hc
    rw [List.mem_append] at hc
    rcases hc with hc | hc
    · exact h2 c hc
    · exact good_textIf2 c hc
  | display h1 _ h2 h3 =>
    obtain ⟨a1, a2, a3⟩ := good_toDollar h1 hr
    obtain ⟨b1, b2, b3⟩ := good_toDollar h2 a3
    obtain ⟨c1, c2, c3⟩ := good_toDollar h3 b3
    refine ⟨?_, ?_, c3⟩
    · intro c hc
      simp only [List.mem_append] at hc
      rcases hc with (hc | hc) | hc
      · exact a1 c hc
      · exact b1 c hc
      · exact c1 c hc
    · intro c hc
      simp only [List.mem_append] at hc
      rcases hc with (hc | hc) | hc
      · exact b2 c hc
      · exact c2 c hc
      · exact good_textIf2 c hc

theorem good_countFrom {k line c} (hl : line ≤ c.lineNo + 1) (h : Ast2.GoodC k c) : Ast2.GoodC (line - 1 + k) (countFrom line c) := by
  obtain ⟨l, v⟩ := c
  simp only [Ast2.Chunk.lineNo] at hl
  refine (?_ : Ast2.GoodC (line - 1 + k) (.mk (l - (line - 1)) v))
  cases h with
  | text => exact .text
  | scope h => exact .scope h
  | command h => exact .command h
  | environment h1 h2 h3 h4 =>
    refine .environment h1 h2 (fun h => by have := h3 h; omega) fun c hc => ?_
    have := h4 c hc
    rwa [show l + k = l - (line - 1) + (line - 1 + k) by omega] at this

theorem good_inside {P : Ast2.Chunk → Prop} {t body inner} (h : Inside t body inner) (hb : ∀ c ∈ body, P c) : ∀ c ∈ inner, P c := by
  induction h with
  | nil => exact fun c hc => by cases hc
  | other _ _ ih =>
    intro c hc
    rcases List.mem_cons.1 hc with rfl | hc
    · exact hb _ (.head _)
    · exact ih (fun c hc => hb c (.tail _ hc)) c hc
  | nested _ _ ih1 ih2 =>
    intro c hc
    rw [List.mem_append] at hc
    rcases hc with hc | hc
    · exact ih1 (fun c hc => hb c (by simp [hc])) c hc
    · exact ih2 (fun c hc => hb c (by simp [hc])) c hc

theorem before_ok {pre o out} (h : before pre o = .ok out) : ∃ cs, o = .ok cs ∧ out = pre ++ cs := by
  cases o with
  | error f => cases h
  | ok cs => cases h; exact ⟨cs, rfl, rfl⟩

theorem good_argOutcome : ∀ {items : List ((Str × Ast2.Scope) × Outcome)} {args}, argOutcome items = .ok args →
    (∀ x ∈ items, ∀ out, x.2 = .ok out → ∀ c ∈ out, GoodC 0 c) → ∀ x ∈ args, ∀ c ∈ Scope.chunks x.2, GoodC 0 c
  | [], args, h, _ => by simp [argOutcome] at h; subst h; simp
  | ((p, sc), o) :: r, args, h, hi => by
    cases o with
    | error f => simp [argOutcome] at h
    | ok inner =>
      cases hr : argOutcome r with
      | error f => simp [argOutcome, hr] at h
      | ok rest =>
        simp [argOutcome, hr] at h
        subst h
        intro x hx
        rcases List.mem_cons.1 hx with rfl | hx
        · exact good_paragraphs (hi _ (.head _) inner rfl)
        · exact good_argOutcome hr (fun x hx => hi x (.tail _ hx)) x hx

/-- Converting good chunks gives good chunks. -/
theorem good_yields {b cs o} (h : Yields b cs o) : ∀ k, (∀ c ∈ cs, Ast2.GoodC k c) → ∀ out, o = .ok out → ∀ c ∈ out, GoodC k c := by
  induction h with
  | nil => intro k _ out ho c hc; cases ho; cases hc
  | text _ _ ih =>
    intro k h out ho c hc
    obtain ⟨cs, h1, rfl⟩ := before_ok ho
    rw [List.mem_append] at hc
    rcases hc with hc | hc
    · exact good_textIf c hc
    · exact ih k (fun c hc => h c (.tail _ hc)) cs h1 c hc
  | @formula b l q r cs lost type content p i o hq hf hcnt _ _ ih1 ih2 =>
    intro k h out ho c hc
    obtain ⟨g1, g2, g3⟩ := good_formula hf (k := k) fun c hc => h c (.tail _ hc)
    cases i with
    | error f => cases ho
    | ok inner =>
      simp only [blockOutcome] at ho
      obtain ⟨cs', h1, rfl⟩ := before_ok ho
      simp only [List.mem_append, List.mem_singleton] at hc
      rcases hc with ((hc | hc) | rfl) | hc
      · exact good_textIf c hc
      · exact g1 c hc
      · refine .maths (good_paragraphs (ih1 _ ?_ inner rfl))
        intro c hc
        obtain ⟨c0, hc0, rfl⟩ := List.mem_map.1 hc
        rcases hcnt with rfl | ⟨_, hcnt⟩
        · cases hc0
        · exact good_countFrom (hcnt c0 hc0) (g2 c0 hc0)
      · refine ih2 k ?_ cs' h1 c hc
        intro c hc
        rcases List.mem_cons.1 hc with rfl | hc
        · exact .text
        · exact g3 c hc
  | uncountable => intro k _ out ho; cases ho
  | unfinished => intro k _ out ho; cases ho
  | @brackets b kd l args body inner l' args' cs i o hin _ _ ih1 ih2 =>
    intro k h out ho c hc
    cases i with
    | error f => cases ho
    | ok inner' =>
      simp only [blockOutcome] at ho
      obtain ⟨cs', h1, rfl⟩ := before_ok ho
      simp only [List.nil_append, List.mem_append, List.mem_singleton] at hc
      rcases hc with rfl | hc
      · refine .maths (good_paragraphs (ih1 _ ?_ inner' rfl))
        intro c hc
        exact (good_inside hin (P := Ast2.GoodC k) (fun c hc => h c (by simp [hc])) c hc).mono _ (by omega)
      · exact ih2 k (fun c hc => h c (by simp [hc])) cs' h1 c hc
  | unclosed => intro k _ out ho; cases ho
  | unexpected => intro k _ out ho; cases ho
  | @scope b l inner sv cs i o _ _ ih1 ih2 =>
    intro k h out ho c hc
    cases i with
    | error f => cases ho
    | ok inner' =>
      simp only [scopeOutcome] at ho
      obtain ⟨cs', h1, rfl⟩ := before_ok ho
      simp only [List.mem_append, List.mem_singleton] at hc
      rcases hc with rfl | hc
      · have := h _ (.head _)
        cases this with
        | scope h => exact .scope (good_paragraphs (ih1 0 h inner' rfl))
      · exact ih2 k (fun c hc => h c (.tail _ hc)) cs' h1 c hc
  | @command b l label cs o items _ _ _ ih1 ih2 =>
    intro k h out ho c hc
    simp only [commandOutcome] at ho
    cases ha : argOutcome items with
    | error f => rw [ha] at ho; cases ho
    | ok args =>
      rw [ha] at ho
      simp only at ho
      obtain ⟨cs', h1, rfl⟩ := before_ok ho
      simp only [List.mem_append, List.mem_singleton] at hc
      rcases hc with rfl | hc
      · have := h _ (.head _)
        cases this with
        | command h =>
          exact .command (good_argOutcome ha fun x hx out ho => ih1 x hx 0 (h x.1 (List.mem_map_of_mem hx)) out ho)
      · exact ih2 k (fun c hc => h c (.tail _ hc)) cs' h1 c hc
  | @environment b l label body pb pe cs i o items _ hb _ ih1 ih2 ih3 =>
    intro k h out ho c hc
    simp only [environmentOutcome] at ho
    cases ha : argOutcome items with
    | error f => rw [ha] at ho; cases ho
    | ok args =>
      rw [ha] at ho
      cases i with
      | error f => cases ho
      | ok inner =>
        simp only at ho
        obtain ⟨cs', h1, rfl⟩ := before_ok ho
        simp only [List.mem_append, List.mem_singleton] at hc
        rcases hc with rfl | hc
        · have := h _ (.head _)
          cases this with
          | environment e1 e2 e3 e4 =>
            refine .environment e1 (good_argOutcome ha fun x hx out ho => ih1 x hx 0 (e2 x.1 (List.mem_map_of_mem hx)) out ho) ?_
              (good_paragraphs (ih2 _ e4 inner rfl))
            intro hne
            refine e3 ?_
            rintro rfl
            cases hb
            exact hne rfl
        · exact ih3 k (fun c hc => h c (.tail _ hc)) cs' h1 c hc

theorem good_becomes {k cs out} (h : Becomes cs (.ok out)) (hc : ∀ c ∈ cs, Ast2.GoodC k c) : ∀ c ∈ out, GoodC k c := by
  obtain ⟨o, h1, h2⟩ := h
  cases o with
  | error f => cases h2
  | ok out' =>
    cases h2
    exact good_paragraphs (good_yields h1 k hc out' rfl)

end LatexAst.Ast3
