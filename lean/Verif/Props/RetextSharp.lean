import Verif.Props.Paste2
import Verif.Props.Retext

/-!
# C106: which replacements of texts are safe everywhere
-/

namespace LatexAst.Ast1
open Spec

theorem letterName_a : LetterName ['a'] := ⟨'a', [], rfl, by decide, fun _ h => by cases h⟩

theorem survives_braces : Survives [.mk 1 (.command (.mk ['a'] [([], .mk [] .curly)]))] := ⟨_, by decide +kernel, retexted_refl (R := fun t t' => t' = t) (fun _ => rfl) _⟩
theorem survives_bare : Survives [.mk 1 (.command (.mk ['a'] []))] := ⟨_, by decide +kernel, retexted_refl (R := fun t t' => t' = t) (fun _ => rfl) _⟩

theorem good_fitting {d : List Chunk} (h : Survives d) : Fitting .plain d := (survives_good.1 h d .top).1

theorem after_bare {t : Str} (ht : Survives [.mk 1 (.text t)]) :
    Survives [.mk 1 (.command (.mk ['a'] [])), .mk 1 (.text t)] ↔ ∃ c r, t = c :: r ∧ isWhitespace c = true := by
  constructor
  · intro h
    have := good_fitting h
    simpa [Fitting, Fits, After.next, letterName_a] using this
  · intro h
    rw [survives_good, good_iff] at ht ⊢
    have h0 := survives_good.1 survives_bare
    rw [good_iff] at h0
    refine ⟨⟨by simpa [Fitting, Fits, After.next, letterName_a] using h, fun l v hm => ?_⟩, fun l i sv hm => ?_, fun l la ar p i sv hm ha => ?_⟩
    · rcases List.mem_cons.1 hm with hm | hm
      · exact h0.1.2 l v (List.mem_singleton.2 hm)
      · exact ht.1.2 l v hm
    · simp at hm
    · simp at hm; obtain ⟨_, _, rfl⟩ := hm; cases ha

theorem after_braces {t : Str} (ht : Survives [.mk 1 (.text t)]) :
    Survives [.mk 1 (.command (.mk ['a'] [([], .mk [] .curly)])), .mk 1 (.text t)] ↔ ∀ c r, t = c :: r → c ∉ ['}', ']', ')'] := by
  constructor
  · intro h
    have := good_fitting h
    simp only [Fitting, Fits, After.next, letterName_a, and_true] at this
    simpa using this
  · intro h
    rw [survives_good, good_iff] at ht ⊢
    have h0 := survives_good.1 survives_braces
    rw [good_iff] at h0
    refine ⟨⟨by simpa [Fitting, Fits, After.next, letterName_a] using h, fun l v hm => ?_⟩, fun l i sv hm => ?_, fun l la ar p i sv hm ha => ?_⟩
    · rcases List.mem_cons.1 hm with hm | hm
      · exact h0.1.2 l v (List.mem_singleton.2 hm)
      · exact ht.1.2 l v hm
    · simp at hm
    · rcases List.mem_cons.1 hm with hm | hm
      · exact h0.2.2 l la ar p i sv (List.mem_singleton.2 hm) ha
      · simp at hm

theorem before_scope {t : Str} (ht : Survives [.mk 1 (.command (.mk ['a'] [([], .mk [] .curly)])), .mk 1 (.text t)]) :
    Survives [.mk 1 (.command (.mk ['a'] [([], .mk [] .curly)])), .mk 1 (.text t), .mk 1 (.scope (.mk [] .curly))] ↔ ¬ Blank t := by
  have hs : Survives [.mk 1 (.scope (.mk [] .curly))] := ⟨_, by decide +kernel, retexted_refl (R := fun t t' => t' = t) (fun _ => rfl) _⟩
  constructor
  · intro h hb
    have := good_fitting h
    simp [Fitting, Fits, After.next, letterName_a, hb] at this
  · intro hb
    have hf := good_fitting ht
    rw [survives_good, good_iff] at ht hs ⊢
    refine ⟨⟨?_, fun l v hm => ?_⟩, fun l i sv hm => ?_, fun l la ar p i sv hm ha => ?_⟩
    · simp only [Fitting, Fits, After.next, letterName_a, and_true, hb, and_false, if_false] at hf ⊢
      simpa using hf
    · rcases List.mem_append.1 (show _ ∈ [_, _] ++ [_] from hm) with hm | hm
      · exact ht.1.2 l v hm
      · exact hs.1.2 l v hm
    · rcases List.mem_append.1 (show _ ∈ [_, _] ++ [_] from hm) with hm | hm
      · exact ht.2.1 l i sv hm
      · exact hs.2.1 l i sv hm
    · rcases List.mem_append.1 (show _ ∈ [_, _] ++ [_] from hm) with hm | hm
      · exact ht.2.2 l la ar p i sv hm ha
      · exact hs.2.2 l la ar p i sv hm ha

theorem within_text {l t v} (h : Within [.mk l (.text t)] v) : v = .text t := by
  cases h with
  | here hm => simp at hm; exact hm.2
  | scope hm _ => simp at hm
  | arg hm _ _ => simp at hm

theorem in_argument {t : Str} (k : ScopeVariant) (ht : Survives [.mk 1 (.text t)]) :
    Survives [.mk 1 (.command (.mk ['a'] [([], .mk [.mk 1 (.text t)] k)]))] ↔ k.closing ∉ t := by
  rw [C108_command]
  constructor
  · rintro (⟨_, h⟩ | ⟨c, h, hc, h'⟩)
    · exact (h [] _ k (.head _)).2.2.2 t (.here (.head _))
    · cases h'
  · intro h
    refine .inl ⟨letterName_a, fun prec inner sv hm => ?_⟩
    simp at hm
    obtain ⟨rfl, rfl, rfl⟩ := hm
    refine ⟨fun _ h => (by cases h), ht, ⟨fun i s hw => ?_, fun la ar p i s hw => ?_⟩, fun t' hw => ?_⟩
    · cases within_text hw
    · cases within_text hw
    · cases within_text hw; exact h

/-- C106: `Replaces` cannot be weakened. A text `t'` may take the place of the text `t` in every document that survives saving and loading exactly
if `Replaces t t'`. (`t` is a text that survives at all: not empty, without backslash, percent sign and opening brackets.) -/
theorem C106_sharp (t t' : Str) (ht : Survives [.mk 1 (.text t)]) :
    (∀ d d', Survives d → Retexted (fun a b => b = a ∨ (a = t ∧ b = t')) d d' → Survives d') ↔ Replaces t t' := by
  constructor
  · intro h
    have here : ∀ d d', Survives d → Retexted (fun a b => b = a ∨ (a = t ∧ b = t')) d d' → Survives d' := h
    have h1 : Survives [.mk 1 (.text t')] := h _ _ ht (by simp [Retexted, RetextedV])
    obtain ⟨ht1, ht2⟩ := (C108_text _ _).1 ht
    obtain ⟨h2, h3⟩ := (C108_text _ _).1 h1
    have hfirst : ∀ c r, t' = c :: r → Special c → ∃ c' r', t = c' :: r' ∧ Special c' := by
      intro c r e hs
      refine Classical.byContradiction fun hn => ?_
      have h4 : Survives [.mk 1 (.command (.mk ['a'] [([], .mk [] .curly)])), .mk 1 (.text t)] := by
        rw [after_braces ht]
        intro c' r' e' hc
        exact hn ⟨c', r', e', by revert hc; unfold Special; simp; grind⟩
      have h5 := h _ _ h4 (show Retexted _ _ [.mk 1 (.command (.mk ['a'] [([], .mk [] .curly)])), .mk 1 (.text t')] by
        simp [Retexted, RetextedV, RetextedArgs])
      rw [after_braces h1] at h5
      exact h5 c r e (special_closer hs (h3 c (e ▸ .head _)))
    refine ⟨fun h => absurd h h2, fun hb => ?_, fun hb => ?_, fun c hc hs => ?_, hfirst⟩
    · have h5 := h _ _ ((after_bare ht).2 hb) (show Retexted _ _ [.mk 1 (.command (.mk ['a'] [])), .mk 1 (.text t')] by
        simp [Retexted, RetextedV, RetextedArgs])
      exact (after_bare h1).1 h5
    · refine Classical.byContradiction fun hn => ?_
      simp only [not_or] at hn
      have h4 : Survives [.mk 1 (.command (.mk ['a'] [([], .mk [] .curly)])), .mk 1 (.text t)] := by
        rw [after_braces ht]
        intro c' r' e' hc
        exact hn.2 ⟨c', r', e', by revert hc; unfold Special; simp; grind⟩
      have h5 := h _ _ ((before_scope h4).2 hn.1) (show Retexted _ _ [.mk 1 (.command (.mk ['a'] [([], .mk [] .curly)])), .mk 1 (.text t'),
        .mk 1 (.scope (.mk [] .curly))] by simp [Retexted, RetextedV, RetextedArgs])
      have h6 := h _ _ h4 (show Retexted _ _ [.mk 1 (.command (.mk ['a'] [([], .mk [] .curly)])), .mk 1 (.text t')] by
        simp [Retexted, RetextedV, RetextedArgs])
      exact (before_scope h6).1 h5 hb
    · refine Classical.byContradiction fun hn => ?_
      obtain ⟨k, hk⟩ : ∃ k : ScopeVariant, k.closing = c := by
        have := special_closer hs (h3 c hc)
        simp at this
        rcases this with rfl | rfl | rfl
        · exact ⟨.curly, rfl⟩
        · exact ⟨.square, rfl⟩
        · exact ⟨.round, rfl⟩
      subst hk
      have h5 := h _ _ ((in_argument k ht).2 hn) (show Retexted _ _ [.mk 1 (.command (.mk ['a'] [([], .mk [.mk 1 (.text t')] k)]))] by
        simp [Retexted, RetextedV, RetextedArgs])
      exact (in_argument k h1).1 h5 hc
  · intro hr d d' hd h
    refine C106 d d' hd (retexted_both ?_ (retexted_refl (R := fun t t' => t' = t) (fun _ => rfl) d) h)
    rintro a b c rfl (rfl | ⟨rfl, rfl⟩)
    · exact replaces_refl _
    · exact hr

/-- The hypothesis is met. -/
theorem C106_sharp_example : Survives [.mk 1 (.text chars!"a)")] ∧ ¬ Replaces chars!"a)" chars!"b}" :=
  ⟨⟨_, by decide +kernel, retexted_refl (R := fun t t' => t' = t) (fun _ => rfl) _⟩, fun h => absurd (h.special '}' (by simp) (by decide)) (by simp)⟩

end LatexAst.Ast1
