import Verif.Spec.Retext3
import Verif.Proofs.Load3g

/-!
# Editing the texts of a stage-3 document
-/

namespace LatexAst.Ast3
open Spec

/-- What the change of a text may be for texts that come together. -/
structure Joinable (J : Str → Str → Prop) : Prop where
  empty : ∀ {t t'}, J t t' → (t = [] ↔ t' = [])
  append : ∀ {t t' u u'}, J t t' → J u u' → J (t ++ u) (t' ++ u')
  refl : ∀ t, J t t

variable {R B J : Str → Str → Prop}

theorem addText_retexted (hJ : Joinable J) {t t' : Str} (h : J t t') : ∀ {r r' : List Ast2.Chunk}, Ast2.Retexted J r r' → Ast2.Retexted J (addText t r) (addText t' r')
  | [], [], _ => by
    simp only [addText]
    by_cases ht : t = []
    · rw [if_pos ht, if_pos ((hJ.empty h).1 ht)]; simp [Ast2.Retexted]
    · rw [if_neg ht, if_neg fun h' => ht ((hJ.empty h).2 h')]; simp [Ast2.Retexted, Ast2.RetextedV, h]
  | .mk _ v :: r, .mk _ v' :: r', hr => by
    simp only [Ast2.Retexted] at hr
    match v, v', hr with
    | .text u, .text u', hr =>
      simp only [addText, Ast2.Retexted, Ast2.RetextedV] at hr ⊢
      exact ⟨hJ.append h hr.1, hr.2⟩
    | .scope (.mk ..), .scope (.mk ..), hr =>
      simp only [addText]
      by_cases ht : t = []
      · rw [if_pos ht, if_pos ((hJ.empty h).1 ht)]; simpa [Ast2.Retexted] using hr
      · rw [if_neg ht, if_neg fun h' => ht ((hJ.empty h).2 h')]; simp only [Ast2.Retexted]; exact ⟨by simpa [Ast2.RetextedV] using h, hr⟩
    | .command (.mk ..), .command (.mk ..), hr =>
      simp only [addText]
      by_cases ht : t = []
      · rw [if_pos ht, if_pos ((hJ.empty h).1 ht)]; simpa [Ast2.Retexted] using hr
      · rw [if_neg ht, if_neg fun h' => ht ((hJ.empty h).2 h')]; simp only [Ast2.Retexted]; exact ⟨by simpa [Ast2.RetextedV] using h, hr⟩
    | .environment (.mk ..), .environment (.mk ..), hr =>
      simp only [addText]
      by_cases ht : t = []
      · rw [if_pos ht, if_pos ((hJ.empty h).1 ht)]; simpa [Ast2.Retexted] using hr
      · rw [if_neg ht, if_neg fun h' => ht ((hJ.empty h).2 h')]; simp only [Ast2.Retexted]; exact ⟨by simpa [Ast2.RetextedV] using h, hr⟩
    | .text _, .scope (.mk ..), hr | .text _, .command (.mk ..), hr | .text _, .environment (.mk ..), hr => simp [Ast2.RetextedV] at hr
    | .scope (.mk ..), .text _, hr | .scope (.mk ..), .command (.mk ..), hr | .scope (.mk ..), .environment (.mk ..), hr => simp [Ast2.RetextedV] at hr
    | .command (.mk ..), .text _, hr | .command (.mk ..), .scope (.mk ..), hr | .command (.mk ..), .environment (.mk ..), hr => simp [Ast2.RetextedV] at hr
    | .environment (.mk ..), .text _, hr | .environment (.mk ..), .scope (.mk ..), hr | .environment (.mk ..), .command (.mk ..), hr => simp [Ast2.RetextedV] at hr
  | [], _ :: _, h => by simp [Ast2.Retexted] at h
  | .mk _ _ :: _, [], h => by simp [Ast2.Retexted] at h

mutual
theorem spellV_retexted (hJ : Joinable J) (hR : ∀ t t', R t t' → J t t') (hB : ∀ t t', B t t' → J t t') : ∀ {v v' : ChunkVariant}, RetextedV R B v v' →
    ∀ {r r' : List Ast2.Chunk}, Ast2.Retexted J r r' → Ast2.Retexted J (v.spell r) (v'.spell r')
  | .text t, .text t', h, r, r', hr => by
    simp only [RetextedV] at h
    exact addText_retexted hJ (hR _ _ h) hr
  | .paragraphBreak t, .paragraphBreak t', h, r, r', hr => by
    simp only [RetextedV] at h
    exact addText_retexted hJ (hB _ _ h) hr
  | .mathsBlock (.mk .dollars k a), .mathsBlock (.mk v' k' a'), h, r, r', hr => by
    simp only [RetextedV] at h
    obtain ⟨rfl, rfl, h⟩ := h
    simp only [ChunkVariant.spell, MathsBlock.spell]
    exact addText_retexted hJ (hJ.refl _) (spellOnto_retexted hJ hR hB h (addText_retexted hJ (hJ.refl _) hr))
  | .mathsBlock (.mk .brackets k a), .mathsBlock (.mk v' k' a'), h, r, r', hr => by
    simp only [RetextedV] at h
    obtain ⟨rfl, rfl, h⟩ := h
    simp only [ChunkVariant.spell, MathsBlock.spell, Ast2.Retexted]
    refine ⟨by simp [Ast2.RetextedV, Ast2.RetextedArgs], spellOnto_retexted hJ hR hB h ?_⟩
    simp only [Ast2.Retexted]
    exact ⟨by simp [Ast2.RetextedV, Ast2.RetextedArgs], hr⟩
  | .scope (.mk a v), .scope (.mk a' v'), h, r, r', hr => by
    simp only [RetextedV] at h
    simp only [ChunkVariant.spell, Scope.spell, Ast2.Retexted, Ast2.RetextedV]
    exact ⟨⟨h.1, spellOnto_retexted hJ hR hB h.2 (by simp [Ast2.Retexted])⟩, hr⟩
  | .command (.mk l args), .command (.mk l' args'), h, r, r', hr => by
    simp only [RetextedV] at h
    simp only [ChunkVariant.spell, Command.spell, Ast2.Retexted, Ast2.RetextedV]
    exact ⟨⟨h.1, spellArgs_retexted hJ hR hB h.2⟩, hr⟩
  | .environment (.mk l args c pb pe), .environment (.mk l' args' c' pb' pe'), h, r, r', hr => by
    simp only [RetextedV] at h
    simp only [ChunkVariant.spell, Environment.spell, Ast2.Retexted, Ast2.RetextedV]
    exact ⟨⟨h.1, spellArgs_retexted hJ hR hB h.2.1, spellOnto_retexted hJ hR hB h.2.2.1 (by simp [Ast2.Retexted]), h.2.2.2⟩, hr⟩
theorem spellOnto_retexted (hJ : Joinable J) (hR : ∀ t t', R t t' → J t t') (hB : ∀ t t', B t t' → J t t') : ∀ {a a' : List Chunk}, Retexted R B a a' →
    ∀ {r r' : List Ast2.Chunk}, Ast2.Retexted J r r' → Ast2.Retexted J (spellOnto a r) (spellOnto a' r')
  | [], [], _, r, r', hr => hr
  | .mk _ v :: cs, .mk _ v' :: cs', h, r, r', hr => by
    simp only [Retexted] at h
    simp only [spellOnto]
    exact spellV_retexted hJ hR hB h.1 (spellOnto_retexted hJ hR hB h.2 hr)
  | [], _ :: _, h, _, _, _ => by simp [Retexted] at h
  | .mk _ _ :: _, [], h, _, _, _ => by simp [Retexted] at h
theorem spellArgs_retexted (hJ : Joinable J) (hR : ∀ t t', R t t' → J t t') (hB : ∀ t t', B t t' → J t t') : ∀ {a a' : List (Str × Scope)},
    RetextedArgs R B a a' → Ast2.RetextedArgs J (spellArgs a) (spellArgs a')
  | [], [], _ => by simp [spellArgs, Ast2.RetextedArgs]
  | (p, .mk a v) :: r, (p', .mk a' v') :: r', h => by
    simp only [RetextedArgs] at h
    simp only [spellArgs, Scope.spell, Ast2.RetextedArgs]
    exact ⟨h.1, h.2.1, spellOnto_retexted hJ hR hB h.2.2.1 (by simp [Ast2.Retexted]), spellArgs_retexted hJ hR hB h.2.2.2⟩
  | [], _ :: _, h => by simp [RetextedArgs] at h
  | (_, .mk ..) :: _, [], h => by simp [RetextedArgs] at h
end

theorem spelled_retexted (hJ : Joinable J) (hR : ∀ t t', R t t' → J t t') (hB : ∀ t t', B t t' → J t t') {a a' : List Chunk} (h : Retexted R B a a') :
    Ast2.Retexted J (spelled a) (spelled a') := spellOnto_retexted hJ hR hB h (by simp [Ast2.Retexted])

end LatexAst.Ast3
