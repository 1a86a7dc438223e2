import Verif.Proofs.Slides
import Verif.Props.Settle

/-!
# What stage 3 does to the text (C117)
-/

namespace LatexAst.Ast3
open Spec

/-- Nothing else happens to the printed text than that characters move from behind a dollar sign to before it, and that
backslashed brackets are dropped. The chunks may be any whose maths delimiters have no arguments, as is the case for
everything that has been read from a source (`C117_read`). -/
theorem C117 (cs : List Ast2.Chunk) (out : List Chunk) (hb : Ast2.AllChunks BareDelims cs) (h : mathsFromChunks cs = .ok out) :
    Slides (Ast2.displayChunks cs) (displayChunks out) := maths_slides hb h

theorem C117_read (s : Str) (e : Ast2.Document) (h : Ast2.fromStr s = .ok e) : Ast2.AllChunks BareDelims e :=
  Ast2.bareDelims_parsed h

/-- The same for a source with one document environment; the blanks after the `\end` of it become those after its `\begin`. -/
theorem C117_document (s : Str) (e : Ast2.Document) (f : Document) (hs : Ast2.fromStr s = .ok e) (h : fromStr s = .ok f)
    (pre post : List Ast2.Chunk) (l : Nat) (args : List (Str × Ast2.Scope)) (content : List Ast2.Chunk) (pb pe : Str)
    (he : e = pre ++ .mk l (.environment (.mk chars!"document" args content pb pe)) :: post)
    (hpre : ∀ c ∈ pre, isBody c = false) (hpost : ∀ c ∈ post, isBody c = false) :
    Slides (Ast2.displayChunks (pre ++ .mk l (.environment (.mk chars!"document" args content pb pb)) :: post)) f.display := by
  have h' : tryFrom e = .ok f := by simpa [fromStr, hs] using h
  exact document_slides h' (Ast2.bareDelims_parsed hs) he hpre hpost

/-- A text that has been changed in this way is lighter, or as heavy with its dollar signs further right. So there is no
way back. -/
theorem C117_ahead (s t : Str) (h : Slides s t) : t = s ∨ Ahead t s := h.ahead

theorem C117_oneway (s t : Str) (h : Slides s t) (h' : Slides t s) : t = s := by
  rcases h.ahead with h | h
  · exact h
  · rcases h'.ahead with h' | h'
    · exact h'.symm
    · exact absurd (h.trans h') (by unfold Ahead; omega)

/-- What is printed is the source, or it is ahead of the source. -/
theorem C117_progress (s : Str) (f : Document) (h : fromStr s = .ok f) (hst : Steady s) : f.display = s ∨ Ahead f.display s := by
  cases hs : Ast2.fromStr s with
  | error x => simp [fromStr, hs] at h
  | ok e =>
    obtain ⟨pre, l, args, content, b, post, he, hb⟩ := hst e hs
    have h1 := C117_document s e f hs h pre post l args content b b he (fun c hc => hb c (by simp [hc])) (fun c hc => hb c (by simp [hc]))
    rw [← he] at h1
    rcases Ast2.C101 s e hs with h2 | h2
    · rw [h2] at h1; exact h1.ahead
    · rcases h1.ahead with h3 | h3
      · exact .inr (.inl (h3 ▸ h2))
      · exact .inr (h3.trans (.inl h2))

/-- Hence reading and printing, over and over, comes to an end: either some printed text is refused, or it is printed back
as it is from then on, or it has not got exactly one document environment (with the same blanks after `\begin` and `\end`). -/
theorem C117_settles (s : Str) :
    ∃ k, k ≤ (weight s + 1) * (weight s * weight s + 1) ∧
      (repeated tidy (k + 1) s = none ∨ (∃ x, repeated tidy k s = some x ∧ tidy x = some x) ∨
        ∃ x, repeated tidy k s = some x ∧ ¬ Steady x) := by
  have step : ∀ s x, tidy s = some x → Steady s → x = s ∨ Ahead x s := by
    intro s x ht hst
    unfold tidy at ht
    split at ht
    · rename_i d hd; injection ht with ht; subst ht; exact C117_progress s d hd hst
    · cases ht
  have key : ∀ (n W : Nat) (s : Str), weight s ≤ W → weight s * (W * W + 1) + (W * W - farness 0 s) ≤ n →
      ∃ k, k ≤ n ∧ (repeated tidy (k + 1) s = none ∨ (∃ x, repeated tidy k s = some x ∧ tidy x = some x) ∨
        ∃ x, repeated tidy k s = some x ∧ ¬ Steady x) := by
    intro n
    induction n with
    | zero =>
      intro W s hW h
      refine ⟨0, Nat.le_refl _, ?_⟩
      by_cases hst : Steady s
      · cases ht : tidy s with
        | none => exact .inl (by rw [Ast1.repeated_succ, ht]; rfl)
        | some x =>
          have h0 : weight s = 0 := by
            rcases Nat.eq_zero_of_add_eq_zero_right (Nat.le_zero.1 h) |> Nat.mul_eq_zero.1 with h | h
            · exact h
            · omega
          have h1 : s = [] := List.length_eq_zero_iff.1 (by have := (Ast1.weight_length s).1; omega)
          rcases step s x ht hst with rfl | hp
          · exact .inr (.inl ⟨x, rfl, ht⟩)
          · exfalso
            rcases hp with hp | ⟨hp, hp'⟩
            · omega
            · have : x = [] := List.length_eq_zero_iff.1 (by have := (Ast1.weight_length x).1; omega)
              subst h1 this
              omega
      · exact .inr (.inr ⟨s, rfl, hst⟩)
    | succ n ih =>
      intro W s hW h
      by_cases hst : Steady s
      · cases ht : tidy s with
        | none => exact ⟨0, by omega, .inl (by rw [Ast1.repeated_succ, ht]; rfl)⟩
        | some x =>
          rcases step s x ht hst with rfl | hp
          · exact ⟨0, by omega, .inr (.inl ⟨x, rfl, ht⟩)⟩
          · have hle : weight x ≤ weight s := by unfold Ahead at hp; omega
            have hfx : farness 0 x ≤ W * W := by
              have h1 := farness_bound x 0
              have h2 := (Ast1.weight_length x).1
              have h3 : x.length * (0 + x.length) ≤ W * W := Nat.mul_le_mul (by omega) (by omega)
              omega
            have hmu : weight x * (W * W + 1) + (W * W - farness 0 x) ≤ n := by
              rcases hp with hp | ⟨hp, hp'⟩
              · have : (weight x + 1) * (W * W + 1) ≤ weight s * (W * W + 1) := Nat.mul_le_mul_right _ hp
                rw [Nat.add_mul] at this
                omega
              · rw [hp]; omega
            obtain ⟨k, hk, hr⟩ := ih W x (by omega) hmu
            refine ⟨k + 1, by omega, ?_⟩
            rcases hr with hr | ⟨y, h1, h2⟩ | ⟨y, h1, h2⟩
            · exact .inl (by rw [Ast1.repeated_succ, ht]; exact hr)
            · exact .inr (.inl ⟨y, by rw [Ast1.repeated_succ, ht]; exact h1, h2⟩)
            · exact .inr (.inr ⟨y, by rw [Ast1.repeated_succ, ht]; exact h1, h2⟩)
      · exact ⟨0, by omega, .inr (.inr ⟨s, rfl, hst⟩)⟩
  refine key _ (weight s) s (Nat.le_refl _) ?_
  rw [Nat.add_mul]
  omega

theorem tidy_of {s x : Str} (h : (fromStr s).map Document.display = .ok x) : tidy s = some x := by
  unfold tidy
  split
  · rename_i d hd; rw [hd] at h; injection h with h; rw [← h]
  · rename_i d hd; rw [hd] at h; cases h

/-- Text behind a command in a formula moves to before the formula, and then stays there; nested brackets go. -/
theorem C117_example :
    tidy chars!"\\begin{document}$a\\alpha b$\\end{document}" = some chars!"\\begin{document}a$\\alpha b$\\end{document}" ∧
    tidy chars!"\\begin{document}a$\\alpha b$\\end{document}" = some chars!"\\begin{document}a$\\alpha b$\\end{document}" ∧
    tidy chars!"\\begin{document}a\\(x\\(y\\)z\\)\\end{document}" = some chars!"\\begin{document}a\\(xyz\\)\\end{document}" := by
  refine ⟨tidy_of ?_, tidy_of ?_, tidy_of ?_⟩ <;> decide +kernel

theorem steady_twice {s t : Str} (h1 : tidy s = some t) (h2 : tidy t = some t) (a : Steady s) (b : Steady t) :
    ∀ n x, repeated tidy n s = some x → Steady x := by
  have hr : ∀ n, repeated tidy (n + 1) s = some t := by
    intro n
    induction n with
    | zero => rw [repeated, repeated]; exact h1
    | succ n ih => rw [repeated, ih]; exact h2
  intro n x hx
  cases n with
  | zero => rw [repeated] at hx; injection hx with hx; exact hx ▸ a
  | succ n => rw [hr n] at hx; injection hx with hx; exact hx ▸ b

/-- The hypothesis is met by this source, in every round. -/
theorem C117_steady : ∀ n x, repeated tidy n chars!"\\begin{document}$a\\alpha b$\\end{document}" = some x → Steady x := by
  have h0 : Steady chars!"\\begin{document}$a\\alpha b$\\end{document}" := by
    intro e h
    refine ⟨[], 1, [], [.mk 1 (.text chars!"$a"), .mk 1 (.command (.mk chars!"alpha" [])), .mk 1 (.text chars!" b$")], [], [], ?_, by simp⟩
    have : Ast2.fromStr chars!"\\begin{document}$a\\alpha b$\\end{document}" = .ok [.mk 1 (.environment (.mk chars!"document" []
      [.mk 1 (.text chars!"$a"), .mk 1 (.command (.mk chars!"alpha" [])), .mk 1 (.text chars!" b$")] [] []))] := by decide +kernel
    rw [h] at this
    injection this
  have h1 : Steady chars!"\\begin{document}a$\\alpha b$\\end{document}" := by
    intro e h
    refine ⟨[], 1, [], [.mk 1 (.text chars!"a$"), .mk 1 (.command (.mk chars!"alpha" [])), .mk 1 (.text chars!" b$")], [], [], ?_, by simp⟩
    have : Ast2.fromStr chars!"\\begin{document}a$\\alpha b$\\end{document}" = .ok [.mk 1 (.environment (.mk chars!"document" []
      [.mk 1 (.text chars!"a$"), .mk 1 (.command (.mk chars!"alpha" [])), .mk 1 (.text chars!" b$")] [] []))] := by decide +kernel
    rw [h] at this
    injection this
  exact steady_twice C117_example.1 C117_example.2.1 h0 h1

/-- A second document environment can come up: a free scope is printed in curly brackets, whatever it was written in, and
so it may be closed earlier. Then the first environment is overwritten by the second. -/
theorem C117_unsteady :
    Steady chars!"[}\\begin{document}b\\end{document}c]\\begin{document}\\end{document}" ∧
    tidy chars!"[}\\begin{document}b\\end{document}c]\\begin{document}\\end{document}" =
      some chars!"{}\\begin{document}b\\end{document}c}\\begin{document}\\end{document}" ∧
    ¬ Steady chars!"{}\\begin{document}b\\end{document}c}\\begin{document}\\end{document}" ∧
    tidy chars!"{}\\begin{document}b\\end{document}c}\\begin{document}\\end{document}" =
      some chars!"{}\\begin{document}\\end{document}c}" := by
  refine ⟨?_, tidy_of (by decide +kernel), ?_, tidy_of (by decide +kernel)⟩
  · intro e h
    have : Ast2.fromStr chars!"[}\\begin{document}b\\end{document}c]\\begin{document}\\end{document}" = .ok ([.mk 1 (.scope (.mk
      [.mk 1 (.text chars!"}"), .mk 1 (.environment (.mk chars!"document" [] [.mk 1 (.text chars!"b")] [] [])), .mk 1 (.text chars!"c")] .curly))] ++
      .mk 1 (.environment (.mk chars!"document" [] [] [] [])) :: []) := by decide +kernel
    rw [h] at this
    injection this with this
    exact ⟨_, _, _, _, _, _, this, by simp [isBody]⟩
  · intro h
    obtain ⟨pre, l, args, content, b, post, h1, h2⟩ := h _ (show Ast2.fromStr chars!"{}\\begin{document}b\\end{document}c}\\begin{document}\\end{document}" = .ok
      [.mk 1 (.scope (.mk [] .curly)), .mk 1 (.environment (.mk chars!"document" [] [.mk 1 (.text chars!"b")] [] [])),
        .mk 1 (.text chars!"c}"), .mk 1 (.environment (.mk chars!"document" [] [] [] []))] by decide +kernel)
    have h3 := congrArg (List.countP isBody) h1
    have h4 : List.countP isBody pre = 0 := List.countP_eq_zero.2 fun c hc => by simp [h2 c (by simp [hc])]
    have h5 : List.countP isBody post = 0 := List.countP_eq_zero.2 fun c hc => by simp [h2 c (by simp [hc])]
    simp [List.countP_cons, h4, h5, isBody] at h3

end LatexAst.Ast3
