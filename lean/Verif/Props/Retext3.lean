import Verif.Proofs.Retext3b
import Verif.Props.Retext

/-!
# C111: stage-3 documents whose texts have been edited survive saving and loading
-/

namespace LatexAst.Ast2
open Spec Ast3

mutual
theorem fewerV_display : ∀ {v v' : ChunkVariant}, RetextedV FewerLines v v' → v'.display.count '\n' ≤ v.display.count '\n'
  | .text t, .text t', h => by simp only [RetextedV] at h; exact h.2
  | .scope (.mk a k), .scope (.mk a' k'), h => by
    simp only [RetextedV] at h
    obtain ⟨rfl, h⟩ := h
    have := fewer_display h
    simp only [ChunkVariant.display, Scope.display, List.count_append, List.count_cons, List.count_nil] at this ⊢
    omega
  | .command (.mk l args), .command (.mk l' args'), h => by
    simp only [RetextedV] at h
    obtain ⟨rfl, h⟩ := h
    have := fewerArgs_display h
    simp only [ChunkVariant.display, Command.display, List.count_append, List.count_cons, List.count_nil] at this ⊢
    omega
  | .environment (.mk l args c pb pe), .environment (.mk l' args' c' pb' pe'), h => by
    simp only [RetextedV] at h
    obtain ⟨rfl, h1, h2, rfl, rfl⟩ := h
    have := fewerArgs_display h1
    have := fewer_display h2
    simp only [ChunkVariant.display, Environment.display, List.count_append, List.count_cons, List.count_nil] at *
    omega
  | .text _, .scope (.mk ..), hr | .text _, .command (.mk ..), hr | .text _, .environment (.mk ..), hr => by simp [RetextedV] at hr
  | .scope (.mk ..), .text _, hr | .scope (.mk ..), .command (.mk ..), hr | .scope (.mk ..), .environment (.mk ..), hr => by simp [RetextedV] at hr
  | .command (.mk ..), .text _, hr | .command (.mk ..), .scope (.mk ..), hr | .command (.mk ..), .environment (.mk ..), hr => by simp [RetextedV] at hr
  | .environment (.mk ..), .text _, hr | .environment (.mk ..), .scope (.mk ..), hr | .environment (.mk ..), .command (.mk ..), hr => by simp [RetextedV] at hr
theorem fewer_display : ∀ {a b : List Chunk}, Retexted FewerLines a b → (displayChunks b).count '\n' ≤ (displayChunks a).count '\n'
  | [], [], _ => Nat.le_refl _
  | .mk _ v :: a, .mk _ v' :: a', h => by
    simp only [Retexted] at h
    have := fewerV_display h.1
    have := fewer_display h.2
    simp only [displayChunks, Chunk.display, List.count_append]
    omega
  | [], _ :: _, h => by simp [Retexted] at h
  | .mk _ _ :: _, [], h => by simp [Retexted] at h
theorem fewerArgs_display : ∀ {a b : List (Str × Scope)}, RetextedArgs FewerLines a b → (displayArgs b).count '\n' ≤ (displayArgs a).count '\n'
  | [], [], _ => Nat.le_refl _
  | (p, .mk a v) :: r, (p', .mk a' v') :: r', h => by
    simp only [RetextedArgs] at h
    obtain ⟨rfl, rfl, h1, h2⟩ := h
    have := fewer_display h1
    have := fewerArgs_display h2
    simp only [displayArgs, Scope.display, List.count_append, List.count_cons, List.count_nil] at *
    omega
  | [], _ :: _, h => by simp [RetextedArgs] at h
  | (_, .mk ..) :: _, [], h => by simp [RetextedArgs] at h
end

theorem fewer_late {v v' : ChunkVariant} (h : RetextedV FewerLines v v') : v'.display.count '\n' + v.late ≤ v.display.count '\n' + v'.late := by
  match v, v', h with
  | .text t, .text t', h => simp only [RetextedV] at h; exact h.2
  | .scope (.mk a k), .scope (.mk a' k'), h => exact fewerV_display h
  | .command (.mk l args), .command (.mk l' args'), h =>
    have := fewerV_display h
    simp only [RetextedV] at h
    obtain ⟨rfl, h⟩ := h
    simp only [ChunkVariant.late]
    omega
  | .environment (.mk l args c pb pe), .environment (.mk l' args' c' pb' pe'), h =>
    simp only [RetextedV] at h
    obtain ⟨rfl, h1, h2, rfl, rfl⟩ := h
    have := fewer_display h2
    simp only [ChunkVariant.late, ChunkVariant.display, Environment.display, List.count_append, List.count_cons, List.count_nil] at *
    omega
  | .text _, .scope (.mk ..), hr | .text _, .command (.mk ..), hr | .text _, .environment (.mk ..), hr => simp [RetextedV] at hr
  | .scope (.mk ..), .text _, hr | .scope (.mk ..), .command (.mk ..), hr | .scope (.mk ..), .environment (.mk ..), hr => simp [RetextedV] at hr
  | .command (.mk ..), .text _, hr | .command (.mk ..), .scope (.mk ..), hr | .command (.mk ..), .environment (.mk ..), hr => simp [RetextedV] at hr
  | .environment (.mk ..), .text _, hr | .environment (.mk ..), .scope (.mk ..), hr | .environment (.mk ..), .command (.mk ..), hr => simp [RetextedV] at hr

theorem short_fewer {a b : List Chunk} (h : Retexted FewerLines a b) (hs : ShortFrom a) : ShortFrom b := by
  intro pre c post he
  obtain ⟨l, v⟩ := c
  subst he
  obtain ⟨pre', l', v', post', rfl, h1, h2⟩ := retexted_split h
  have := hs pre' _ post' rfl
  have := fewer_late h1
  have := fewer_display h2
  simp only [Chunk.variant, displayChunks, Chunk.display, List.count_append] at *
  omega

theorem nodesOnly_retexted {R : Str → Str → Prop} : ∀ {a b : List Chunk}, Retexted R a b → Retexted R (nodesOnly a) (nodesOnly b)
  | [], [], h => h
  | .mk _ v :: a, .mk _ v' :: a', h => by
    simp only [Retexted] at h
    have ih := nodesOnly_retexted h.2
    match v, v', h with
    | .text _, .text _, h => exact ih
    | .scope (.mk ..), .scope (.mk ..), h => simp only [nodesOnly, Retexted]; exact ⟨h.1, ih⟩
    | .command (.mk ..), .command (.mk ..), h => simp only [nodesOnly, Retexted]; exact ⟨h.1, ih⟩
    | .environment (.mk ..), .environment (.mk ..), h => simp only [nodesOnly, Retexted]; exact ⟨h.1, ih⟩
    | .text _, .scope (.mk ..), hr | .text _, .command (.mk ..), hr | .text _, .environment (.mk ..), hr => simp [RetextedV] at hr
    | .scope (.mk ..), .text _, hr | .scope (.mk ..), .command (.mk ..), hr | .scope (.mk ..), .environment (.mk ..), hr => simp [RetextedV] at hr
    | .command (.mk ..), .text _, hr | .command (.mk ..), .scope (.mk ..), hr | .command (.mk ..), .environment (.mk ..), hr => simp [RetextedV] at hr
    | .environment (.mk ..), .text _, hr | .environment (.mk ..), .scope (.mk ..), hr | .environment (.mk ..), .command (.mk ..), hr => simp [RetextedV] at hr
  | [], _ :: _, h => by simp [Retexted] at h
  | .mk _ _ :: _, [], h => by simp [Retexted] at h

mutual
theorem retextedV_mono {R S : Str → Str → Prop} (hRS : ∀ t t', R t t' → S t t') : ∀ {v v' : ChunkVariant}, RetextedV R v v' → RetextedV S v v'
  | .text _, .text _, h => by simp only [RetextedV] at h ⊢; exact hRS _ _ h
  | .scope (.mk ..), .scope (.mk ..), h => by simp only [RetextedV] at h ⊢; exact ⟨h.1, retexted_mono hRS h.2⟩
  | .command (.mk ..), .command (.mk ..), h => by simp only [RetextedV] at h ⊢; exact ⟨h.1, retextedArgs_mono hRS h.2⟩
  | .environment (.mk ..), .environment (.mk ..), h => by
    simp only [RetextedV] at h ⊢; exact ⟨h.1, retextedArgs_mono hRS h.2.1, retexted_mono hRS h.2.2.1, h.2.2.2⟩
  | .text _, .scope (.mk ..), hr | .text _, .command (.mk ..), hr | .text _, .environment (.mk ..), hr => by simp [RetextedV] at hr
  | .scope (.mk ..), .text _, hr | .scope (.mk ..), .command (.mk ..), hr | .scope (.mk ..), .environment (.mk ..), hr => by simp [RetextedV] at hr
  | .command (.mk ..), .text _, hr | .command (.mk ..), .scope (.mk ..), hr | .command (.mk ..), .environment (.mk ..), hr => by simp [RetextedV] at hr
  | .environment (.mk ..), .text _, hr | .environment (.mk ..), .scope (.mk ..), hr | .environment (.mk ..), .command (.mk ..), hr => by simp [RetextedV] at hr
theorem retexted_mono {R S : Str → Str → Prop} (hRS : ∀ t t', R t t' → S t t') : ∀ {a a' : List Chunk}, Retexted R a a' → Retexted S a a'
  | [], [], _ => by simp [Retexted]
  | .mk _ v :: a, .mk _ v' :: a', h => by simp only [Retexted] at h ⊢; exact ⟨retextedV_mono hRS h.1, retexted_mono hRS h.2⟩
  | [], _ :: _, h => by simp [Retexted] at h
  | .mk _ _ :: _, [], h => by simp [Retexted] at h
theorem retextedArgs_mono {R S : Str → Str → Prop} (hRS : ∀ t t', R t t' → S t t') : ∀ {a a' : List (Str × Scope)}, RetextedArgs R a a' → RetextedArgs S a a'
  | [], [], _ => by simp [RetextedArgs]
  | (p, .mk a v) :: r, (p', .mk a' v') :: r', h => by
    simp only [RetextedArgs] at h ⊢
    exact ⟨h.1, h.2.1, retexted_mono hRS h.2.2.1, retextedArgs_mono hRS h.2.2.2⟩
  | [], _ :: _, h => by simp [RetextedArgs] at h
  | (_, .mk ..) :: _, [], h => by simp [RetextedArgs] at h
end

end LatexAst.Ast2

namespace LatexAst.Ast3
open Spec

mutual
theorem retextedV_mono {R S B C : Str → Str → Prop} (hRS : ∀ t t', R t t' → S t t') (hBC : ∀ t t', B t t' → C t t') : ∀ {v v' : ChunkVariant}, RetextedV R B v v' → RetextedV S C v v'
  | .text _, v', h => by obtain ⟨_, rfl, g⟩ := retextedV_text h; simp only [RetextedV]; exact hRS _ _ g
  | .paragraphBreak _, v', h => by obtain ⟨_, rfl, g⟩ := retextedV_break h; simp only [RetextedV]; exact hBC _ _ g
  | .mathsBlock (.mk ..), v', h => by obtain ⟨_, rfl, g⟩ := retextedV_maths h; simp only [RetextedV, true_and]; exact retexted_mono hRS hBC g
  | .scope (.mk ..), v', h => by obtain ⟨_, rfl, g⟩ := retextedV_scope h; simp only [RetextedV, true_and]; exact retexted_mono hRS hBC g
  | .command (.mk ..), v', h => by obtain ⟨_, rfl, g⟩ := retextedV_command h; simp only [RetextedV, true_and]; exact retextedArgs_mono hRS hBC g
  | .environment (.mk ..), v', h => by
    obtain ⟨_, _, rfl, g1, g2⟩ := retextedV_environment h
    simp only [RetextedV, true_and, and_true]; exact ⟨retextedArgs_mono hRS hBC g1, retexted_mono hRS hBC g2⟩
theorem retexted_mono {R S B C : Str → Str → Prop} (hRS : ∀ t t', R t t' → S t t') (hBC : ∀ t t', B t t' → C t t') : ∀ {a a' : List Chunk}, Retexted R B a a' → Retexted S C a a'
  | [], a', h => by rw [retexted_nil h]; simp [Retexted]
  | .mk _ v :: a, a', h => by
    obtain ⟨_, _, _, rfl, g1, g2⟩ := retexted_cons h
    simp only [Retexted]; exact ⟨retextedV_mono hRS hBC g1, retexted_mono hRS hBC g2⟩
theorem retextedArgs_mono {R S B C : Str → Str → Prop} (hRS : ∀ t t', R t t' → S t t') (hBC : ∀ t t', B t t' → C t t') : ∀ {a a' : List (Str × Scope)}, RetextedArgs R B a a' → RetextedArgs S C a a'
  | [], [], _ => by simp [RetextedArgs]
  | (p, .mk a v) :: r, (p', .mk a' v') :: r', h => by
    simp only [RetextedArgs] at h ⊢
    exact ⟨h.1, h.2.1, retexted_mono hRS hBC h.2.2.1, retextedArgs_mono hRS hBC h.2.2.2⟩
  | [], _ :: _, h => by simp [RetextedArgs] at h
  | (_, .mk ..) :: _, [], h => by simp [RetextedArgs] at h
end

/-- Each chunk of the second list is one of the first, edited. -/
theorem retexted_mem {R B : Str → Str → Prop} : ∀ {a a' : List Chunk}, Retexted R B a a' → ∀ l' v', .mk l' v' ∈ a' → ∃ l v, .mk l v ∈ a ∧ RetextedV R B v v'
  | [], a', h, _, _, hm => by rw [retexted_nil h] at hm; cases hm
  | .mk l v :: a, a', h, m, w, hm => by
    obtain ⟨l', v', a', rfl, g1, g2⟩ := retexted_cons h
    rcases List.mem_cons.1 hm with hm | hm
    · cases hm; exact ⟨l, v, .head _, g1⟩
    · obtain ⟨l, v, h1, h2⟩ := retexted_mem g2 m w hm
      exact ⟨l, v, .tail _ h1, h2⟩

theorem within_retexted {R B : Str → Str → Prop} {a' v'} (h : Within a' v') : ∀ {a}, Retexted R B a a' → ∃ v, Within a v ∧ RetextedV R B v v' := by
  induction h with
  | here hm =>
    intro a hr
    obtain ⟨l, v, h1, h2⟩ := retexted_mem hr _ _ hm
    exact ⟨v, .here h1, h2⟩
  | scope hm _ ih =>
    intro a hr
    obtain ⟨l, v, h1, h2⟩ := retexted_mem hr _ _ hm
    match v, h2 with
    | .scope (.mk i k), h2 =>
      simp only [RetextedV] at h2
      obtain ⟨v, h3, h4⟩ := ih h2.2
      exact ⟨v, .scope h1 h3, h4⟩
    | .text _, h2 | .paragraphBreak _, h2 | .mathsBlock (.mk ..), h2 | .command (.mk ..), h2 | .environment (.mk ..), h2 => simp [RetextedV] at h2
  | arg hm ha _ ih =>
    intro a hr
    obtain ⟨l, v, h1, h2⟩ := retexted_mem hr _ _ hm
    match v, h2 with
    | .command (.mk la args), h2 =>
      simp only [RetextedV] at h2
      obtain ⟨⟨p, ⟨i, k⟩⟩, h5, h6⟩ := retextedArgs_mem h2.2 _ ha
      obtain ⟨v, h3, h4⟩ := ih h6
      exact ⟨v, .arg h1 h5 h3, h4⟩
    | .text _, h2 | .paragraphBreak _, h2 | .mathsBlock (.mk ..), h2 | .scope (.mk ..), h2 | .environment (.mk ..), h2 => simp [RetextedV] at h2
  | envArg hm ha _ ih =>
    intro a hr
    obtain ⟨l, v, h1, h2⟩ := retexted_mem hr _ _ hm
    match v, h2 with
    | .environment (.mk la args c pb pe), h2 =>
      simp only [RetextedV] at h2
      obtain ⟨⟨p, ⟨i, k⟩⟩, h5, h6⟩ := retextedArgs_mem h2.2.1 _ ha
      obtain ⟨v, h3, h4⟩ := ih h6
      exact ⟨v, .envArg h1 h5 h3, h4⟩
    | .text _, h2 | .paragraphBreak _, h2 | .mathsBlock (.mk ..), h2 | .scope (.mk ..), h2 | .command (.mk ..), h2 => simp [RetextedV] at h2
  | envContent hm _ ih =>
    intro a hr
    obtain ⟨l, v, h1, h2⟩ := retexted_mem hr _ _ hm
    match v, h2 with
    | .environment (.mk la args c pb pe), h2 =>
      simp only [RetextedV] at h2
      obtain ⟨v, h3, h4⟩ := ih h2.2.2.1
      exact ⟨v, .envContent h1 h3, h4⟩
    | .text _, h2 | .paragraphBreak _, h2 | .mathsBlock (.mk ..), h2 | .scope (.mk ..), h2 | .command (.mk ..), h2 => simp [RetextedV] at h2
  | maths hm _ ih =>
    intro a hr
    obtain ⟨l, v, h1, h2⟩ := retexted_mem hr _ _ hm
    match v, h2 with
    | .mathsBlock (.mk ..), h2 =>
      simp only [RetextedV] at h2
      obtain ⟨v, h3, h4⟩ := ih h2.2.2
      exact ⟨v, .maths h1 h3, h4⟩
    | .text _, h2 | .paragraphBreak _, h2 | .scope (.mk ..), h2 | .command (.mk ..), h2 | .environment (.mk ..), h2 => simp [RetextedV] at h2

theorem calm_fewer {a a' : List Chunk} (hr : Retexted FewerLines FewerLines a a') (h : Calm a) : Calm a' := by
  intro k content hw
  obtain ⟨v, h1, h2⟩ := within_retexted hw hr
  match v, h2 with
  | .mathsBlock (.mk v1 k1 c1), h2 =>
    simp only [RetextedV] at h2
    obtain ⟨rfl, rfl, h2⟩ := h2
    exact Ast2.short_fewer (Ast2.nodesOnly_retexted (spelled_retexted joinable_fewer (fun _ _ h => h) (fun _ _ h => h) h2)) (h _ _ h1)
  | .text _, h2 | .paragraphBreak _, h2 | .scope (.mk ..), h2 | .command (.mk ..), h2 | .environment (.mk ..), h2 => simp [RetextedV] at h2

theorem document_spelled {R B J : Str → Str → Prop} {f f' : Document} (hJ : Joinable J) (hR : ∀ t t', R t t' → J t t') (hB : ∀ t t', B t t' → J t t')
    (h : f.Retexted R B f') : Ast2.Retexted J f.spelled f'.spelled := by
  refine Ast2.retexted_app (spelled_retexted hJ hR hB h.preamble) ?_
  simp only [Ast2.Retexted, Ast2.RetextedV, true_and]
  exact ⟨⟨spellArgs_retexted hJ hR hB h.bodyArgs, spelled_retexted hJ hR hB h.body, h.beginPrec, h.endPrec⟩, spelled_retexted hJ hR hB h.trailing⟩

theorem isBody_retexted {R : Str → Str → Prop} {a a' : List Ast2.Chunk} (h : Ast2.Retexted R a a') (ha : ∀ c ∈ a, isBody c = false) : ∀ c ∈ a', isBody c = false := by
  intro c hc
  cases hb : isBody c with
  | false => rfl
  | true =>
    obtain ⟨l, args, content, pb, pe, rfl⟩ := isBody_cases hb
    obtain ⟨l0, v0, h1, h2⟩ := Ast2.retexted_mem h _ _ hc
    obtain ⟨args0, c0, rfl, _⟩ := Ast2.retexted_environment h2
    have := ha _ h1
    simp [isBody] at this

theorem classNames_retexted {R : Str → Str → Prop} : ∀ {a b : List (Str × Ast2.Scope)}, Ast2.RetextedArgs R a b → (classNames a).length = (classNames b).length
  | [], [], _ => rfl
  | (p, .mk i k) :: a, (p', .mk i' k') :: b, h => by
    simp only [Ast2.RetextedArgs] at h
    obtain ⟨rfl, rfl, _, h⟩ := h
    have := classNames_retexted h
    cases k' <;> simp [classNames, this]
  | [], _ :: _, h => by simp [Ast2.RetextedArgs] at h
  | (_, .mk ..) :: _, [], h => by simp [Ast2.RetextedArgs] at h

theorem retextedArgs_app {R : Str → Str → Prop} : ∀ {a b a' b' : List (Str × Ast2.Scope)}, Ast2.RetextedArgs R a a' → Ast2.RetextedArgs R b b' →
    Ast2.RetextedArgs R (a ++ b) (a' ++ b')
  | [], _, [], _, _, h => h
  | (p, .mk i k) :: a, _, (p', .mk i' k') :: a', _, h, h2 => by
    simp only [List.cons_append, Ast2.RetextedArgs] at h ⊢
    exact ⟨h.1, h.2.1, h.2.2.1, retextedArgs_app h.2.2.2 h2⟩
  | [], _, _ :: _, _, h, _ => by simp [Ast2.RetextedArgs] at h
  | (_, .mk ..) :: _, _, [], _, h, _ => by simp [Ast2.RetextedArgs] at h

theorem classArgs_retexted {R : Str → Str → Prop} : ∀ {a b : List Ast2.Chunk}, Ast2.Retexted R a b → Ast2.RetextedArgs R (classArgs a) (classArgs b)
  | [], [], _ => by simp [classArgs, Ast2.RetextedArgs]
  | .mk _ v :: a, .mk _ v' :: b, h => by
    simp only [Ast2.Retexted] at h
    have ih := classArgs_retexted h.2
    match v, v', h with
    | .text _, .text _, h => exact ih
    | .scope (.mk ..), .scope (.mk ..), h => exact ih
    | .environment (.mk ..), .environment (.mk ..), h => exact ih
    | .command (.mk l args), .command (.mk l' args'), h =>
      simp only [Ast2.RetextedV] at h
      obtain ⟨⟨rfl, h1⟩, _⟩ := h
      simp only [classArgs]
      split
      · exact retextedArgs_app h1 ih
      · exact ih
    | .text _, .scope (.mk ..), hr | .text _, .command (.mk ..), hr | .text _, .environment (.mk ..), hr => simp [Ast2.RetextedV] at hr
    | .scope (.mk ..), .text _, hr | .scope (.mk ..), .command (.mk ..), hr | .scope (.mk ..), .environment (.mk ..), hr => simp [Ast2.RetextedV] at hr
    | .command (.mk ..), .text _, hr | .command (.mk ..), .scope (.mk ..), hr | .command (.mk ..), .environment (.mk ..), hr => simp [Ast2.RetextedV] at hr
    | .environment (.mk ..), .text _, hr | .environment (.mk ..), .scope (.mk ..), hr | .environment (.mk ..), .command (.mk ..), hr => simp [Ast2.RetextedV] at hr
  | [], _ :: _, h => by simp [Ast2.Retexted] at h
  | .mk _ _ :: _, [], h => by simp [Ast2.Retexted] at h

theorem retexted_prefix {R : Str → Str → Prop} : ∀ {a pre post : List Ast2.Chunk} {l v}, Ast2.Retexted R a (pre ++ .mk l v :: post) →
    ∃ pre' l' v' post', a = pre' ++ .mk l' v' :: post' ∧ Ast2.Retexted R pre' pre ∧ Ast2.RetextedV R v' v
  | [], [], _, _, _, h => by simp [Ast2.Retexted] at h
  | [], .mk _ _ :: _, _, _, _, h => by simp [Ast2.Retexted] at h
  | .mk l' v' :: a, [], post, l, v, h => by
    simp only [List.nil_append, Ast2.Retexted] at h
    exact ⟨[], l', v', a, rfl, by simp [Ast2.Retexted], h.1⟩
  | .mk l' v' :: a, .mk _ _ :: pre, post, l, v, h => by
    simp only [List.cons_append, Ast2.Retexted] at h
    obtain ⟨p, l1, v1, q, rfl, h1, h2⟩ := retexted_prefix h.2
    exact ⟨.mk l' v' :: p, l1, v1, q, rfl, by simp only [Ast2.Retexted]; exact ⟨h.1, h1⟩, h2⟩

theorem classesOk_retexted {R : Str → Str → Prop} {a b : List Ast2.Chunk} (h : Ast2.Retexted R a b) (hok : ClassesOk a) : ClassesOk b := by
  rintro x l args y rfl
  obtain ⟨pre, l', v', post, rfl, h1, h2⟩ := retexted_prefix h
  obtain ⟨args0, rfl, h3⟩ := Ast2.retexted_command h2
  obtain ⟨h4, h5⟩ := hok _ _ _ _ rfl
  have h6 := classNames_retexted (classArgs_retexted h1)
  rw [h4] at h6
  rw [classNames_retexted h3] at h5
  exact ⟨List.eq_nil_of_length_eq_zero h6.symm, h5⟩

/-- C111: after texts and breaks of a surviving stage-3 document have been edited, it survives saving and loading, or loading panics over line
numbers, and that only if a formula in dollar signs is no longer calm. -/
theorem C111 (f f' : Document) (h : Survives f) (hr : f.Retexted Edits EditsBreak f') (hc : f'.ClassKept) :
    Loadable f' ∧ (Survives f' ↔ f'.Calm) ∧ (Survives f' ∨ fromStr f'.display = .error .panic) := by
  have hl := ((C110_exact f).1 h).1
  have hl' : Loadable f' := by
    refine ⟨by rw [hr.beginPrec, hr.endPrec, hl.blanks], ?_, hl.preamble.edited hr.preamble, ?_, hl.body.edited hr.body, hl.trailing.edited hr.trailing,
      ?_, classesOk_retexted (retexted_spelled hr.preamble) hl.classes, hc.1, hc.2⟩
    · exact Ast2.C106 _ _ hl.stage2 (Ast2.retexted_mono (fun _ _ h => h.replaces)
        (document_spelled joinable_edits (fun _ _ h => h.joined) (fun _ _ h => h.joined) hr))
    · intro x hx
      obtain ⟨y, hy, h3⟩ := retextedArgs_mem hr.bodyArgs x hx
      exact (hl.bodyArgs y hy).edited h3
    · rintro c (hm | hm)
      · exact isBody_retexted (retexted_spelled hr.preamble) (fun c hc => hl.one c (.inl hc)) c hm
      · exact isBody_retexted (retexted_spelled hr.trailing) (fun c hc => hl.one c (.inr hc)) c hm
  refine ⟨hl', ?_, C110_otherwise f' hl'⟩
  rw [C110_exact]
  exact ⟨And.right, fun h => ⟨hl', h⟩⟩

/-- C111: if no text or break gets more newlines than it had, the edited document survives. -/
theorem C111_lines (f f' : Document) (h : Survives f)
    (hr : f.Retexted (fun t t' => Edits t t' ∧ t'.count '\n' ≤ t.count '\n') (fun s s' => EditsBreak s s' ∧ s'.count '\n' ≤ s.count '\n') f')
    (hc : f'.ClassKept) : Survives f' := by
  have hm : ∀ {a a'}, Retexted (fun t t' => Edits t t' ∧ t'.count '\n' ≤ t.count '\n') (fun s s' => EditsBreak s s' ∧ s'.count '\n' ≤ s.count '\n') a a' →
      Retexted FewerLines FewerLines a a' :=
    retexted_mono (fun t t' h => ⟨h.1.empty.symm, h.2⟩) (fun t t' h => ⟨h.1.joined.empty.symm, h.2⟩)
  have he : f.Retexted Edits EditsBreak f' :=
    ⟨retexted_mono (fun _ _ h => h.1) (fun _ _ h => h.1) hr.preamble, retextedArgs_mono (fun _ _ h => h.1) (fun _ _ h => h.1) hr.bodyArgs,
      retexted_mono (fun _ _ h => h.1) (fun _ _ h => h.1) hr.body, retexted_mono (fun _ _ h => h.1) (fun _ _ h => h.1) hr.trailing,
      hr.beginPrec, hr.endPrec⟩
  have hcalm := ((C110_exact f).1 h).2
  refine ((C111 f f' h he hc).2.1).2 ⟨calm_fewer (hm hr.preamble) hcalm.1, ?_, calm_fewer (hm hr.body) hcalm.2.2.1, calm_fewer (hm hr.trailing) hcalm.2.2.2⟩
  intro x hx
  obtain ⟨y, hy, h3⟩ := retextedArgs_mem hr.bodyArgs x hx
  exact calm_fewer (hm h3) (hcalm.2.1 y hy)

/-- C111: class and options are right if they were and neither they nor the arguments of the `\documentclass` commands have been edited. -/
theorem C111_class (f f' : Document) (h : Survives f) (h1 : f'.documentclass = f.documentclass) (h2 : f'.documentoptions = f.documentoptions)
    (h3 : classArgs (spelled f'.preamable) = classArgs (spelled f.preamable)) : f'.ClassKept := by
  have hl := ((C110_exact f).1 h).1
  unfold Document.ClassKept
  rw [h1, h2, h3]
  exact ⟨hl.documentclass, hl.options⟩

/-- Replacements that are always allowed. -/
theorem edits_clean {t t' : Str} (h1 : t' ≠ []) (h2 : t ≠ []) (h3 : ∀ c ∈ t', ¬ Special c ∧ c ≠ '$')
    (h4 : (∃ c r, t' = c :: r ∧ isWhitespace c = true) ↔ ∃ c r, t = c :: r ∧ isWhitespace c = true) (h5 : ¬ Blank t')
    (h6 : ¬ ParagraphGap t') (h7 : ¬ EndsInNewline t') : Edits t t' where
  empty := ⟨fun h => absurd h h1, fun h => absurd h h2⟩
  startsBlank := h4
  blank h := absurd h h5
  special c hc hs := by
    rcases hs with hs | hs
    · exact absurd hs (h3 c hc).1
    · exact absurd hs (h3 c hc).2
  first c r he hs := absurd hs (h3 c (he ▸ .head _)).1
  gap h := absurd h h6
  ends h := absurd h h7

theorem noGap_few {t : Str} (h : t.count '\n' ≤ 1) : ¬ ParagraphGap t := by
  rintro ⟨a, w, b, rfl, _⟩
  simp [List.count_append] at h
  omega

theorem noEnd_dark {a : Str} {c : Char} (h : isWhitespace c = false) : ¬ EndsInNewline (a ++ [c]) := by
  rintro ⟨x, w, he, hb⟩
  cases List.eq_nil_or_concat w with
  | inl hw =>
    subst hw
    have := congrArg List.getLast? he
    simp at this
    subst this
    exact absurd h (by decide)
  | inr hw =>
    obtain ⟨w', d, rfl⟩ := hw
    have := congrArg List.getLast? he
    simp only [List.getLast?_append, List.concat_eq_append, List.getLast?_cons] at this
    simp at this
    subst this
    rw [hb c (by simp)] at h
    cases h

/-- `builtByHand`, with two texts and the break edited. -/
def edited : Document :=
  { documentclass := some chars!"a"
    documentoptions := []
    preamable := [.mk 7 (.command (.mk chars!"documentclass" [([], .mk [.mk 9 (.text chars!"a")] .curly)])), .mk 7 (.text chars!"\n")]
    bodyArgs := []
    bodyBeginPrec := []
    bodyEndPrec := []
    trailing := []
    body := [.mk 3 (.text chars!"x "),
      .mk 0 (.mathsBlock (.mk .dollars .inline [.mk 5 (.scope (.mk [.mk 2 (.text chars!"p,\nq")] .curly)), .mk 1 (.text chars!"=z")])),
      .mk 5 (.text chars!" another text"), .mk 4 (.paragraphBreak chars!"\n \n\t\n"), .mk 8 (.mathsBlock (.mk .brackets .outline []))] }

/-- The hypotheses of C111 are met, with a newline more in a scope in the formula, and three in the break instead of two. -/
theorem C111_example : builtByHand.Retexted Edits EditsBreak edited ∧ edited.ClassKept ∧ Survives edited := by
  have h1 : builtByHand.Retexted Edits EditsBreak edited := by
    have e1 : Edits chars!"y" chars!"p,\nq" := edits_clean (by decide) (by decide) (by decide)
      ⟨fun ⟨_, _, h, hh⟩ => by cases h; exact absurd hh (by decide), fun ⟨_, _, h, hh⟩ => by cases h; exact absurd hh (by decide)⟩
      (fun h => absurd (h 'p' (by simp)) (by decide)) (noGap_few (by decide)) (noEnd_dark (a := chars!"p,\n") (c := 'q') (by decide))
    have e2 : Edits chars!" w" chars!" another text" := edits_clean (by decide) (by decide) (by decide)
      ⟨fun _ => ⟨_, _, rfl, by decide⟩, fun _ => ⟨_, _, rfl, by decide⟩⟩
      (fun h => absurd (h 'a' (by simp)) (by decide)) (noGap_few (by decide)) (noEnd_dark (a := chars!" another tex") (c := 't') (by decide))
    have e3 : EditsBreak chars!"\n\n" chars!"\n \n\t\n" := .inr ⟨⟨⟨_, rfl⟩, by unfold Blank; decide, by decide⟩, ⟨_, rfl⟩, by unfold Blank; decide, by decide⟩
    constructor <;> simp [builtByHand, edited, Retexted, RetextedV, RetextedArgs, Edits.refl, e1, e2, e3]
  have hc : edited.ClassKept := C111_class builtByHand edited C110_example.1 rfl rfl (by decide +kernel)
  have hs : Survives edited := (survives_comesBack edited).2 (by decide +kernel)
  exact ⟨h1, hc, hs⟩

/-- Loading panics, as a computation. -/
def loadPanics (f : Document) : Bool := match fromStr f.display with
  | .error .panic => true
  | _ => false

theorem loadPanics_iff {f : Document} (h : loadPanics f = true) : fromStr f.display = .error .panic := by
  unfold loadPanics at h
  split at h
  · assumption
  · cases h

/-- C111: a second newline in that scope is too many: loading panics. -/
theorem C111_needed : Edits chars!"y" chars!"p,\nq,\nr" ∧
    Survives (scopeInDollars (.mk 1 (.text chars!"y"))) ∧
    fromStr (scopeInDollars (.mk 1 (.text chars!"p,\nq,\nr"))).display = .error .panic := by
  have hg : ¬ ParagraphGap chars!"p,\nq,\nr" := by
    rintro ⟨a, w, b, he, hb⟩
    have hq : 'q' ∈ w := by
      match a, he with
      | [], he => simp at he
      | [_], he => simp at he
      | [_, _], he =>
        cases w with
        | nil => simp at he
        | cons x w => simp at he; exact List.mem_cons.2 (.inl he.2.2.1)
      | [_, _, _], he => simp at he
      | [_, _, _, _], he => simp at he
      | [_, _, _, _, _], he =>
        simp at he
        have := congrArg List.length he.2.2.2.2.2
        cases w with
        | nil => simp at he
        | cons x w => simp at this
      | _ :: _ :: _ :: _ :: _ :: _ :: _, he =>
        have := congrArg List.length he
        simp at this
        omega
    exact absurd (hb _ hq) (by decide)
  refine ⟨edits_clean (by decide) (by decide) (by decide)
      ⟨fun ⟨_, _, h, hh⟩ => by cases h; exact absurd hh (by decide), fun ⟨_, _, h, hh⟩ => by cases h; exact absurd hh (by decide)⟩
      (fun h => absurd (h 'p' (by simp)) (by decide)) hg (noEnd_dark (a := chars!"p,\nq,\n") (c := 'r') (by decide)),
    (survives_comesBack (scopeInDollars (.mk 1 (.text chars!"y")))).2 (by decide +kernel), loadPanics_iff (by decide +kernel)⟩

end LatexAst.Ast3
