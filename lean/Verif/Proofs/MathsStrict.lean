import Verif.Proofs.MathsTotal
import Verif.Spec.Nesting

/-!
# When dollar-free maths loses nothing
-/

namespace LatexAst.Ast3

/-- Nowhere is maths directly inside maths of its own kind, and delimiters have no arguments. -/
def Simple (cs : List Ast2.Chunk) : Prop := ∀ lv, Ast2.Level cs lv → (∀ k, ¬ SelfNested k lv) ∧ Bare lv

theorem simple_child {cs inner} (h : Simple cs) (hc : Ast2.Child2 cs inner) : Simple inner := by
  intro lv hl
  refine h lv ?_
  clear h
  induction hl with
  | top => exact Ast2.Level.child .top hc
  | scope _ hm ih => exact .scope ih hm
  | arg _ hm ha ih => exact .arg ih hm ha
  | envArg _ hm ha ih => exact .envArg ih hm ha
  | envContent _ hm ih => exact .envContent ih hm

theorem simple_infix {a b c : List Ast2.Chunk} (h : Simple (a ++ b ++ c)) : Simple b := by
  intro lv hl
  rcases hl.head with rfl | ⟨inner, hc, hl⟩
  · obtain ⟨h1, h2⟩ := h _ .top
    refine ⟨?_, fun l label args hm => h2 l label args (by simp [hm])⟩
    rintro k ⟨x, l, args, m, l', args', y, hm, rfl⟩
    exact h1 k ⟨a ++ x, l, args, m, l', args', y ++ c, hm, by simp⟩
  · exact simple_child h (Ast2.child2_mono (b := a ++ b ++ c) hc (by intro x hx; simp [hx])) lv hl

/-- Nothing is dropped, or there is a first nested opening command. -/
theorem inside_cases {k body inner} (h : Inside k body inner) : inner = body ∨
    ∃ p l args r, (∀ x ∈ p, NotOfKind k x) ∧ body = p ++ .mk l (.command (.mk (openLabel k) args)) :: r := by
  induction h with
  | nil => exact .inl rfl
  | @other c body inner hc _ ih =>
    rcases ih with rfl | ⟨p, l, args, r, hp, rfl⟩
    · exact .inl rfl
    · exact .inr ⟨c :: p, l, args, r, by intro x hx; rcases List.mem_cons.1 hx with rfl | hx; exact hc; exact hp x hx, rfl⟩
  | nested => exact .inr ⟨[], _, _, _, by simp, rfl⟩

theorem converts_strict {cs out} (h : Converts false cs out) : DollarFree cs → Simple cs → Converts true cs out := by
  have tl : ∀ {c : Ast2.Chunk} {cs}, DollarFree (c :: cs) → DollarFree cs := fun h => dollarFree_mono h (by intro c hc; simp [hc])
  have sl : ∀ {c : Ast2.Chunk} {cs}, Simple (c :: cs) → Simple cs := by
    intro c cs h
    exact simple_infix (a := [c]) (c := []) (by simpa using h)
  induction h with
  | nil => intro _ _; exact .nil
  | text ht _ ih => intro hd hs; exact .text ht (ih (tl hd) (sl hs))
  | inline => intro hd; exact absurd (by simp) (hd _ (.here (.head _)))
  | display => intro hd; exact absurd (by simp) (hd _ (.here (.head _)))
  | sloppy => intro hd; exact absurd (by simp) (hd _ (.here (.head _)))
  | inlineSpan => intro hd; exact absurd (by simp) (hd _ (.here (.head _)))
  | displaySpan => intro hd; exact absurd (by simp) (hd _ (.here (.head _)))
  | @brackets k l args body inner l' args' rest content out hi _ _ _ ih1 ih2 =>
    intro hd hs
    obtain ⟨h1, h2⟩ := hs _ .top
    have ha : args = [] := h2 l _ args (by simp) (isMathsLabel_iff'.1 ⟨k, .inl rfl⟩)
    have ha' : args' = [] := h2 l' (closeLabel k) args' (by simp) (isMathsLabel_iff'.1 ⟨k, .inr rfl⟩)
    have hb : inner = body := by
      rcases inside_cases hi with h | ⟨p, l1, a1, r, hp, rfl⟩
      · exact h
      · exact absurd ⟨[], l, args, p, l1, a1, r ++ .mk l' (.command (.mk (closeLabel k) args')) :: rest, hp, by simp⟩ (h1 k)
    subst hb
    refine .brackets hi (fun _ => ⟨rfl, ha, ha'⟩) (ih1 ?_ ?_) (ih2 ?_ ?_)
    · exact dollarFree_mono hd (by intro c hc; simp [hc])
    · exact simple_infix (a := [.mk l (.command (.mk (openLabel k) args))]) (c := .mk l' (.command (.mk (closeLabel k) args')) :: rest)
        (by simpa using hs)
    · exact dollarFree_mono hd (by intro c hc; simp [hc])
    · exact simple_infix (a := .mk l (.command (.mk (openLabel k) args)) :: (inner ++ [.mk l' (.command (.mk (closeLabel k) args'))])) (c := [])
        (by simpa using hs)
  | scope _ _ ih1 ih2 =>
    intro hd hs
    exact .scope (ih1 (dollarFree_child hd (.scope (.head _))) (simple_child hs (.scope (.head _)))) (ih2 (tl hd) (sl hs))
  | command hl hlen _ _ ih1 ih2 =>
    intro hd hs
    refine .command hl hlen ?_ (ih2 (tl hd) (sl hs))
    intro p inner sv content hm
    have := (List.of_mem_zip hm).1
    exact ih1 p inner sv content hm (dollarFree_child hd (.arg (.head _) this)) (simple_child hs (.arg (.head _) this))
  | environment hlen _ _ _ ih1 ih2 ih3 =>
    intro hd hs
    refine .environment hlen ?_ (ih2 (dollarFree_child hd (.envContent (.head _))) (simple_child hs (.envContent (.head _)))) (ih3 (tl hd) (sl hs))
    intro p inner sv content hm
    have := (List.of_mem_zip hm).1
    exact ih1 p inner sv content hm (dollarFree_child hd (.envArg (.head _) this)) (simple_child hs (.envArg (.head _) this))

/-- A dollar-free sequence without maths directly inside maths of its own kind prints the same once converted. -/
theorem display_simple {cs out} (h : mathsFromChunks cs = .ok out) (hd : DollarFree cs) (hs : Simple cs) :
    displayChunks out = Ast2.displayChunks cs := by
  rcases dollarFree_total _ cs (Nat.le_refl _) hd with ⟨o, ho⟩ | ⟨e, he⟩
  · rw [mathsFromChunks_converts ho] at h
    cases h
    rw [display_paragraphs, display_converts (converts_strict ho hd hs)]
  · rw [mathsFromChunks_rejected he] at h; cases h

end LatexAst.Ast3
