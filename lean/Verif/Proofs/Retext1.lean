import Verif.Spec.Retext
import Verif.Props.Verbatim

/-! # Replacing texts, stage 1 -/

namespace LatexAst.Ast1
open Spec

variable {R S T : Str → Str → Prop}

mutual
theorem sameV_display : ∀ {v v' : ChunkVariant}, RetextedV (fun t t' => t' = t) v v' → v'.display = v.display
  | .text t, .text t', h => by simp only [RetextedV] at h; simp [h]
  | .scope (.mk a v), .scope (.mk a' v'), h => by
    simp only [RetextedV] at h
    simp [ChunkVariant.display, Scope.display, h.1, same_display h.2]
  | .command (.mk l args), .command (.mk l' args'), h => by
    simp only [RetextedV] at h
    simp [ChunkVariant.display, Command.display, h.1, sameArgs_display h.2]
  | .text _, .scope _, h | .text _, .command _, h | .scope (.mk ..), .text _, h | .scope (.mk ..), .command _, h
  | .command (.mk ..), .text _, h | .command (.mk ..), .scope _, h => by simp [RetextedV] at h
theorem same_display : ∀ {a b : List Chunk}, Retexted (fun t t' => t' = t) a b → displayChunks b = displayChunks a
  | [], [], _ => rfl
  | .mk _ v :: cs, .mk _ v' :: cs', h => by
    simp only [Retexted] at h
    simp [displayChunks_cons, Chunk.display, sameV_display h.1, same_display h.2]
  | [], _ :: _, h | .mk .. :: _, [], h => by simp [Retexted] at h
theorem sameArgs_display : ∀ {a b : List (Str × Scope)}, RetextedArgs (fun t t' => t' = t) a b → displayArgs b = displayArgs a
  | [], [], _ => rfl
  | (p, .mk x v) :: cs, (p', .mk x' v') :: cs', h => by
    simp only [RetextedArgs] at h
    simp [displayArgs, Scope.display, h.1, h.2.1, same_display h.2.2.1, sameArgs_display h.2.2.2]
  | [], _ :: _, h | (_, .mk ..) :: _, [], h => by simp [RetextedArgs] at h
end

mutual
/-- Two replacements of the same document. -/
theorem retextedV_both (hT : ∀ t t1 t2, R t t1 → S t t2 → T t1 t2) : ∀ {v v1 v2 : ChunkVariant}, RetextedV R v v1 → RetextedV S v v2 → RetextedV T v1 v2
  | .text t, .text t1, .text t2, h1, h2 => by simp only [RetextedV] at *; exact hT _ _ _ h1 h2
  | .scope (.mk a v), .scope (.mk a1 v1), .scope (.mk a2 v2), h1, h2 => by
    simp only [RetextedV] at *
    exact ⟨by rw [h1.1, h2.1], retexted_both hT h1.2 h2.2⟩
  | .command (.mk l args), .command (.mk l1 args1), .command (.mk l2 args2), h1, h2 => by
    simp only [RetextedV] at *
    exact ⟨by rw [h1.1, h2.1], retextedArgs_both hT h1.2 h2.2⟩
  | .text _, .scope _, _, h, _ | .text _, .command _, _, h, _ | .scope (.mk ..), .text _, _, h, _ | .scope (.mk ..), .command _, _, h, _
  | .command (.mk ..), .text _, _, h, _ | .command (.mk ..), .scope _, _, h, _
  | .text _, _, .scope _, _, h | .text _, _, .command _, _, h | .scope (.mk ..), _, .text _, _, h | .scope (.mk ..), _, .command _, _, h
  | .command (.mk ..), _, .text _, _, h | .command (.mk ..), _, .scope _, _, h => by simp [RetextedV] at h
theorem retexted_both (hT : ∀ t t1 t2, R t t1 → S t t2 → T t1 t2) : ∀ {v v1 v2 : List Chunk}, Retexted R v v1 → Retexted S v v2 → Retexted T v1 v2
  | [], [], [], _, _ => by simp [Retexted]
  | .mk _ v :: cs, .mk _ v1 :: cs1, .mk _ v2 :: cs2, h1, h2 => by
    simp only [Retexted] at *
    exact ⟨retextedV_both hT h1.1 h2.1, retexted_both hT h1.2 h2.2⟩
  | [], _ :: _, _, h, _ | .mk .. :: _, [], _, h, _ | [], _, _ :: _, _, h | .mk .. :: _, _, [], _, h => by simp [Retexted] at h
theorem retextedArgs_both (hT : ∀ t t1 t2, R t t1 → S t t2 → T t1 t2) : ∀ {v v1 v2 : List (Str × Scope)}, RetextedArgs R v v1 →
    RetextedArgs S v v2 → RetextedArgs T v1 v2
  | [], [], [], _, _ => by simp [RetextedArgs]
  | (p, .mk x v) :: cs, (p1, .mk x1 v1) :: cs1, (p2, .mk x2 v2) :: cs2, h1, h2 => by
    simp only [RetextedArgs] at *
    exact ⟨by rw [h1.1, h2.1], by rw [h1.2.1, h2.2.1], retexted_both hT h1.2.2.1 h2.2.2.1, retextedArgs_both hT h1.2.2.2 h2.2.2.2⟩
  | [], _ :: _, _, h, _ | (_, .mk ..) :: _, [], _, h, _ | [], _, _ :: _, _, h | (_, .mk ..) :: _, _, [], _, h => by simp [RetextedArgs] at h
end

mutual
theorem retextedV_refl (hR : ∀ t, R t t) : ∀ v : ChunkVariant, RetextedV R v v
  | .text t => by simp [RetextedV, hR]
  | .scope (.mk a v) => by simp [RetextedV, retexted_refl hR a]
  | .command (.mk l args) => by simp [RetextedV, retextedArgs_refl hR args]
theorem retexted_refl (hR : ∀ t, R t t) : ∀ cs : List Chunk, Retexted R cs cs
  | [] => by simp [Retexted]
  | .mk _ v :: cs => by simp [Retexted, retextedV_refl hR v, retexted_refl hR cs]
theorem retextedArgs_refl (hR : ∀ t, R t t) : ∀ args : List (Str × Scope), RetextedArgs R args args
  | [] => by simp [RetextedArgs]
  | (p, .mk a v) :: r => by simp [RetextedArgs, retexted_refl hR a, retextedArgs_refl hR r]
end

mutual
theorem sameV_renum : ∀ v : ChunkVariant, RetextedV (fun t t' => t' = t) v v.renum
  | .text t => by simp [RetextedV, ChunkVariant.renum]
  | .scope (.mk a v) => by simp [RetextedV, ChunkVariant.renum, same_renum a]
  | .command (.mk l args) => by simp [RetextedV, ChunkVariant.renum, sameArgs_renum args]
theorem same_renum : ∀ (cs : List Chunk) (p n), Retexted (fun t t' => t' = t) cs (renumSeq p n cs)
  | [], _, _ => by simp [Retexted, renumSeq]
  | .mk _ v :: cs, _, _ => by simp [Retexted, renumSeq, sameV_renum v, same_renum cs]
theorem sameArgs_renum : ∀ args : List (Str × Scope), RetextedArgs (fun t t' => t' = t) args (renumArgs args)
  | [] => by simp [RetextedArgs, renumArgs]
  | (p, .mk a v) :: r => by simp [RetextedArgs, renumArgs, same_renum a, sameArgs_renum r]
end

theorem retexted_append : ∀ {a a' b b' : List Chunk}, Retexted R a a' → Retexted R b b' → Retexted R (a ++ b) (a' ++ b')
  | [], [], _, _, _, h => h
  | .mk _ v :: cs, .mk _ v' :: cs', _, _, h, hb => by
    simp only [Retexted, List.cons_append] at h ⊢
    exact ⟨h.1, retexted_append h.2 hb⟩
  | [], _ :: _, _, _, h, _ | .mk .. :: _, [], _, _, h, _ => by simp [Retexted] at h

theorem retexted_mem : ∀ {a b : List Chunk}, Retexted R a b → ∀ {l' v'}, .mk l' v' ∈ b → ∃ l v, .mk l v ∈ a ∧ RetextedV R v v'
  | [], [], _, _, _, hm => by cases hm
  | .mk l v :: cs, .mk l1 v1 :: cs1, h, l', v', hm => by
    simp only [Retexted] at h
    cases hm with
    | head => exact ⟨l, v, .head _, h.1⟩
    | tail _ hm =>
      obtain ⟨l0, v0, h1, h2⟩ := retexted_mem h.2 hm
      exact ⟨l0, v0, .tail _ h1, h2⟩
  | [], _ :: _, h, _, _, _ | .mk .. :: _, [], h, _, _, _ => by simp [Retexted] at h

theorem retextedArgs_mem : ∀ {a b : List (Str × Scope)}, RetextedArgs R a b → ∀ {p x' v}, (p, Scope.mk x' v) ∈ b →
    ∃ x, (p, Scope.mk x v) ∈ a ∧ Retexted R x x'
  | [], [], _, _, _, _, hm => by cases hm
  | (p, .mk x v) :: cs, (p1, .mk x1 v1) :: cs1, h, p', x', v', hm => by
    simp only [RetextedArgs] at h
    obtain ⟨rfl, rfl, h3, h4⟩ := h
    cases hm with
    | head => exact ⟨x, .head _, h3⟩
    | tail _ hm =>
      obtain ⟨x0, h1, h2⟩ := retextedArgs_mem h4 hm
      exact ⟨x0, .tail _ h1, h2⟩
  | [], _ :: _, h, _, _, _, _ | (_, .mk ..) :: _, [], h, _, _, _, _ => by simp [RetextedArgs] at h

theorem retextedV_scope {v : ChunkVariant} {a' sv} (h : RetextedV R v (.scope (.mk a' sv))) : ∃ a, v = .scope (.mk a sv) ∧ Retexted R a a' := by
  match v, h with
  | .scope (.mk a v), h => simp only [RetextedV] at h; exact ⟨a, by rw [h.1], h.2⟩
  | .text _, h | .command (.mk ..), h => simp [RetextedV] at h

theorem retextedV_command {v : ChunkVariant} {l args'} (h : RetextedV R v (.command (.mk l args'))) :
    ∃ args, v = .command (.mk l args) ∧ RetextedArgs R args args' := by
  match v, h with
  | .command (.mk l0 args), h => simp only [RetextedV] at h; exact ⟨args, by rw [h.1], h.2⟩
  | .text _, h | .scope (.mk ..), h => simp [RetextedV] at h

theorem retextedV_text {v : ChunkVariant} {t'} (h : RetextedV R v (.text t')) : ∃ t, v = .text t ∧ R t t' := by
  match v, h with
  | .text t, h => simp only [RetextedV] at h; exact ⟨t, rfl, h⟩
  | .command (.mk ..), h | .scope (.mk ..), h => simp [RetextedV] at h

theorem retexted_level {d d' lv'} (h : Retexted R d d') (hl : Level d' lv') : ∃ lv, Level d lv ∧ Retexted R lv lv' := by
  induction hl with
  | top => exact ⟨d, .top, h⟩
  | scope _ hm ih =>
    obtain ⟨lv, h1, h2⟩ := ih
    obtain ⟨l, v, h3, h4⟩ := retexted_mem h2 hm
    obtain ⟨a, rfl, h5⟩ := retextedV_scope h4
    exact ⟨a, .scope h1 h3, h5⟩
  | arg _ hm ha ih =>
    obtain ⟨lv, h1, h2⟩ := ih
    obtain ⟨l, v, h3, h4⟩ := retexted_mem h2 hm
    obtain ⟨args, rfl, h5⟩ := retextedV_command h4
    obtain ⟨x, h6, h7⟩ := retextedArgs_mem h5 ha
    exact ⟨x, .arg h1 h3 h6, h7⟩

theorem retexted_within {d' v'} (hw : Within d' v') : ∀ {d}, Retexted R d d' → ∃ v, Within d v ∧ RetextedV R v v' := by
  induction hw with
  | here hm =>
    intro d h
    obtain ⟨l, v, h3, h4⟩ := retexted_mem h hm
    exact ⟨v, .here h3, h4⟩
  | scope hm _ ih =>
    intro d h
    obtain ⟨l, v, h3, h4⟩ := retexted_mem h hm
    obtain ⟨a, rfl, h5⟩ := retextedV_scope h4
    obtain ⟨w, h6, h7⟩ := ih h5
    exact ⟨w, .scope h3 h6, h7⟩
  | arg hm ha _ ih =>
    intro d h
    obtain ⟨l, v, h3, h4⟩ := retexted_mem h hm
    obtain ⟨args, rfl, h5⟩ := retextedV_command h4
    obtain ⟨x, h6, h7⟩ := retextedArgs_mem h5 ha
    obtain ⟨w, h8, h9⟩ := ih h7
    exact ⟨w, .arg h3 h6 h8, h9⟩

theorem replaces_refl (t : Str) : Replaces t t := ⟨id, id, .inl, fun _ h _ => h, fun c r h hs => ⟨c, r, h, hs⟩⟩

/-- A text without special characters. -/
theorem replaces_clean {t t' : Str} (h1 : Sanitised t') (h2 : t' ≠ [])
    (h3 : (∃ c r, t = c :: r ∧ isWhitespace c = true) → ∃ c r, t' = c :: r ∧ isWhitespace c = true) (h4 : Blank t' → Blank t) : Replaces t t' :=
  ⟨fun h => absurd h h2, h3, fun h => .inl (h4 h), fun c hc hs => absurd hs (h1 c hc), fun c r e hs => absurd hs (h1 c (e ▸ .head _))⟩

/-! ## Replacing keeps documents printable -/

theorem retextedArgs_nil {a b : List (Str × Scope)} (h : RetextedArgs R a b) : a = [] ↔ b = [] := by
  match a, b, h with
  | [], [], _ => simp
  | (_, .mk ..) :: _, (_, .mk ..) :: _, _ => simp
  | [], _ :: _, h | (_, .mk ..) :: _, [], h => simp [RetextedArgs] at h

theorem special_closer {c : Char} (h : Special c) (h' : c ∉ ['\\', '%', '{', '[', '(']) : c ∈ ['}', ']', ')'] := by
  revert h h'; unfold Special; simp; grind

theorem fits_retexted {A : After} {v v' : ChunkVariant} (h : RetextedV Replaces v v') (hn : NodeCanon v) (hf : Fits A v) : Fits A v' := by
  match v', h with
  | .text t', h =>
    obtain ⟨t, rfl, hq⟩ := retextedV_text h
    cases A with
    | plain => trivial
    | text => exact hf
    | blank => exact hf
    | bare => exact hq.startsBlank hf
    | withArgs =>
      intro c r e hc
      obtain ⟨c', r', rfl, hs⟩ := hq.first c r e (by revert hc; unfold Special; simp; grind)
      exact hf c' r' rfl (special_closer hs (hn.2 c' (.head _)))
  | .scope (.mk a' v), h =>
    obtain ⟨a, rfl, _⟩ := retextedV_scope h
    cases A <;> simpa [Fits] using hf
  | .command (.mk l args'), h =>
    obtain ⟨args, rfl, _⟩ := retextedV_command h
    cases A <;> simpa [Fits] using hf

/-- What may follow `A` may follow `B`. -/
def After.upTo (A B : After) : Prop := A = B ∨ (A = .blank ∧ B = .text)

theorem fits_upTo {A B : After} (h : A.upTo B) {v : ChunkVariant} (hf : Fits A v) : Fits B v := by
  rcases h with rfl | ⟨rfl, rfl⟩
  · exact hf
  · cases v with
    | text t => exact hf
    | scope sc => simp [Fits]
    | command c => cases c; simp [Fits]

theorem next_retexted {A B : After} (hAB : A.upTo B) {v v' : ChunkVariant} (hn : NodeCanon v) (hf : Fits A v) (h : RetextedV Replaces v v') :
    (A.next v).upTo (B.next v') := by
  match v', h with
  | .text t', h =>
    obtain ⟨t, rfl, hq⟩ := retextedV_text h
    simp only [After.next]
    rcases hAB with rfl | ⟨rfl, rfl⟩
    · by_cases hA : A = .bare ∨ A = .withArgs
      · by_cases h1 : Blank t'
        · rcases hq.blank h1 with h2 | ⟨c, r, rfl, hs⟩
          · simp [hA, h1, h2, After.upTo]
          · have hc := special_closer hs (hn.2 c (.head _))
            rcases hA with rfl | rfl
            · obtain ⟨_, _, h, hw⟩ := hf
              cases h
              exfalso; revert hc hw; simp; rintro (rfl | rfl | rfl) <;> decide
            · exact absurd hc (hf c r rfl)
        · by_cases h2 : Blank t <;> simp [hA, h1, h2, After.upTo]
      · simp [hA, After.upTo]
    · simp [After.upTo]
  | .scope (.mk a' v), h =>
    obtain ⟨a, rfl, _⟩ := retextedV_scope h
    exact .inl rfl
  | .command (.mk l args'), h =>
    obtain ⟨args, rfl, hq⟩ := retextedV_command h
    refine .inl ?_
    by_cases hl : LetterName l <;> simp only [After.next, hl, if_true, if_false, retextedArgs_nil hq]

theorem fitting_retexted : ∀ {a b : List Chunk} {A B : After}, A.upTo B → Retexted Replaces a b → (∀ l v, .mk l v ∈ a → NodeCanon v) → Fitting A a →
    Fitting B b
  | [], [], _, _, _, _, _, _ => trivial
  | .mk l v :: cs, .mk l1 v1 :: cs1, A, B, hAB, h, hn, hf => by
    simp only [Retexted] at h
    simp only [Fitting] at hf ⊢
    exact ⟨fits_upTo hAB (fits_retexted h.1 (hn _ _ (.head _)) hf.1),
      fitting_retexted (next_retexted hAB (hn _ _ (.head _)) hf.1 h.1) h.2 (fun l v hm => hn l v (.tail _ hm)) hf.2⟩
  | [], _ :: _, _, _, _, h, _, _ | .mk .. :: _, [], _, _, _, h, _, _ => by simp [Retexted] at h

theorem noCloser_retexted {k a b} (h : Retexted Replaces a b) (hk : NoCloserOf k a) : NoCloserOf k b := by
  intro t' hw
  obtain ⟨v, h1, h2⟩ := retexted_within hw h
  obtain ⟨t, rfl, hq⟩ := retextedV_text h2
  intro hc
  exact hk _ h1 (hq.special _ hc (by cases k <;> simp [ScopeVariant.closing, Special]))

theorem noGroup_retexted {k a b} (h : Retexted R a b) (hk : NoGroupOf k a) : NoGroupOf k b := by
  refine ⟨fun inner sv hw => ?_, fun label args prec inner sv hw ha => ?_⟩
  · obtain ⟨v, h1, h2⟩ := retexted_within hw h
    obtain ⟨x, rfl, _⟩ := retextedV_scope h2
    exact hk.1 _ _ h1
  · obtain ⟨v, h1, h2⟩ := retexted_within hw h
    obtain ⟨args0, rfl, hq⟩ := retextedV_command h2
    obtain ⟨x, h3, _⟩ := retextedArgs_mem hq ha
    exact hk.2 _ _ _ _ _ h1 h3

theorem nodeCanon_retexted {v v' : ChunkVariant} (h : RetextedV Replaces v v') (hn : NodeCanon v) : NodeCanon v' := by
  match v', h with
  | .text t', h =>
    obtain ⟨t, rfl, hq⟩ := retextedV_text h
    obtain ⟨h1, h2⟩ := hn
    refine ⟨fun h => h1 (hq.empty h), fun x hx hc => h2 x (hq.special x hx ?_) hc⟩
    revert hc; unfold Special; simp; grind
  | .scope (.mk a' v), h =>
    obtain ⟨a, rfl, hq⟩ := retextedV_scope h
    exact ⟨hn.1, noCloser_retexted hq hn.2⟩
  | .command (.mk l args'), h =>
    obtain ⟨args, rfl, hq⟩ := retextedV_command h
    rcases hn with ⟨h1, h2⟩ | ⟨c, h1, h2, rfl⟩
    · refine .inl ⟨h1, fun prec inner sv hm => ?_⟩
      obtain ⟨x, h3, h4⟩ := retextedArgs_mem hq hm
      obtain ⟨h5, h6, h7⟩ := h2 _ _ _ h3
      exact ⟨h5, noGroup_retexted h4 h6, noCloser_retexted h4 h7⟩
    · exact .inr ⟨c, h1, h2, (retextedArgs_nil hq).1 rfl⟩

theorem printable_retexted {d d'} (h : Retexted Replaces d d') (hp : ∀ lv, Level d lv → Printable lv) : ∀ lv, Level d' lv → Printable lv := by
  intro lv' hl'
  obtain ⟨lv, hl, hr⟩ := retexted_level h hl'
  obtain ⟨h1, h2⟩ := hp lv hl
  refine ⟨fitting_retexted (.inl rfl) hr h2 h1, fun l v hm => ?_⟩
  obtain ⟨l0, v0, h3, h4⟩ := retexted_mem hr hm
  exact nodeCanon_retexted h4 (h2 _ _ h3)

/-- What survives is, apart from line numbers, canonical. -/
theorem Survives.canonical {d : Document} (h : Survives d) : ∃ d0, SameButLines d d0 ∧ Canonical d0 := by
  obtain ⟨d0, h1, h2⟩ := h
  refine ⟨d0, h2, (C03_exact d0).1 ?_⟩
  rw [same_display h2]
  exact h1

/-- A printable document is read back renumbered. -/
theorem printable_parse {d : Document} (h : ∀ lv, Level d lv → Printable lv) : fromStr (displayChunks d) = .ok (renumSeq .none 1 d) := by
  have := C03 _ (canonical_renum h)
  rwa [display_renumSeq] at this

end LatexAst.Ast1
