import Verif.Proofs.Retext2
import Verif.Props.Written

/-!
# C106: edited texts survive saving and loading
-/

namespace LatexAst.Ast1
open Spec

/-- C106, stage 1: if a document survives saving and loading, it still does after any of its texts have been replaced. -/
theorem C106 (d d' : Document) (h : Survives d) (hr : Retexted Replaces d d') : Survives d' := by
  obtain ⟨d0, h1, h2⟩ := h.canonical
  have h3 : Retexted Replaces d0 d' := retexted_both (by rintro t t1 t2 rfl h; exact h) h1 hr
  exact ⟨_, printable_parse (printable_retexted h3 fun lv hl => (h2 lv hl).1), same_renum _ _ _⟩

/-- C106, stage 1: the documents it is about, among those parsed. -/
theorem C106_parsed (s : Str) (d : Document) (h : fromStr s = .ok d) : Survives d ↔ NoScopeInCurlyArgument d ∧ NoCloserInScope d := by
  constructor
  · intro hs
    obtain ⟨d0, h1, h2⟩ := hs.canonical
    have hr : Retexted Replaces d0 d := retexted_both (S := fun t t' => t' = t) (by rintro t t1 t2 rfl rfl; exact replaces_refl _) h1 (retexted_refl (R := fun t t' => t' = t) (fun _ => rfl) d)
    have hp := printable_retexted hr fun lv hl => (h2 lv hl).1
    constructor
    · intro label args p inner hw hm sc hsc
      obtain ⟨lv, l, hl, hm'⟩ := within_level hw
      have := (hp lv hl).2 _ _ hm'
      rcases this with ⟨_, hb⟩ | ⟨c, _, _, rfl⟩
      · obtain ⟨_, ⟨hns, _⟩, _⟩ := hb p inner .curly hm
        obtain ⟨i, sv⟩ := sc
        have hcur : sv = .curly := by
          obtain ⟨lv', l', hl', hm''⟩ := within_level hsc
          exact ((hp lv' ((Level.arg hl hm' hm).trans hl')).2 _ _ hm'').1
        exact hns i sv hsc hcur
      · cases hm
    · intro inner sv hw
      obtain ⟨lv, l, hl, hm'⟩ := within_level hw
      exact ((hp lv hl).2 _ _ hm').2
  · intro hc
    exact ⟨d, (C14_exact_partial s d h).2 hc, retexted_refl (R := fun t t' => t' = t) (fun _ => rfl) d⟩

theorem replaces_example : Replaces chars!" x" chars!"\ny\n z" ∧ Replaces chars!"a" chars!" b\n" ∧ Replaces chars!"a)" chars!"b)(" = False ∧
    Replaces chars!"a)" chars!")" = False ∧ Replaces chars!"a)]" chars!"b]" ∧ ¬ Replaces chars!" b" chars!"b" := by
  have hw : ∀ c ∈ chars!"\ny\n zb", ¬ Special c := by simp [Special]
  refine ⟨replaces_clean (fun c hc => hw c (by simp at hc ⊢; grind)) (by simp) (fun _ => ⟨_, _, rfl, by decide⟩) ?_,
    replaces_clean (fun c hc => hw c (by simp at hc ⊢; grind)) (by simp) ?_ ?_, ?_, ?_, ?_, fun h => ?_⟩
  · exact fun h => absurd (h 'y' (by simp)) (by decide)
  · exact fun ⟨_, _, h, hh⟩ => by cases h; exact absurd hh (by decide)
  · exact fun h => absurd (h 'b' (by simp)) (by decide)
  · exact eq_false fun h => absurd (h.special '(' (by simp) (by decide)) (by simp)
  · refine eq_false fun h => ?_
    obtain ⟨_, _, h, hh⟩ := h.first ')' [] rfl (by decide)
    cases h; exact absurd hh (by decide)
  · refine ⟨by simp, fun ⟨_, _, h, hh⟩ => by cases h; exact absurd hh (by decide), fun h => absurd (h 'b' (by simp)) (by decide), ?_, ?_⟩
    · intro c hc hs
      simp at hc
      rcases hc with rfl | rfl
      · exact absurd hs (by decide)
      · simp
    · intro c r e hs
      cases e
      exact absurd hs (by decide)
  · obtain ⟨_, _, h', hh⟩ := h.startsBlank ⟨' ', _, rfl, by decide⟩
    cases h'; exact absurd hh (by decide)

/-- The hypotheses are met: two texts of a parsed document, one of them in an argument, are replaced by texts with other lines
(so that the line numbers no longer fit). -/
theorem C106_example :
    fromStr chars!"a\\foo[ x] b" = .ok [.mk 1 (.text chars!"a"), .mk 1 (.command (.mk chars!"foo" [([], .mk [.mk 1 (.text chars!" x")] .square)])),
      .mk 1 (.text chars!" b")] ∧
    Survives [.mk 1 (.text chars!"a"), .mk 1 (.command (.mk chars!"foo" [([], .mk [.mk 1 (.text chars!" x")] .square)])), .mk 1 (.text chars!" b")] ∧
    Retexted Replaces
      [.mk 1 (.text chars!"a"), .mk 1 (.command (.mk chars!"foo" [([], .mk [.mk 1 (.text chars!" x")] .square)])), .mk 1 (.text chars!" b")]
      [.mk 1 (.text chars!" b\n"), .mk 1 (.command (.mk chars!"foo" [([], .mk [.mk 1 (.text chars!"\ny\n z")] .square)])), .mk 1 (.text chars!" b")] := by
  refine ⟨by decide +kernel, ⟨_, by decide +kernel, retexted_refl (R := fun t t' => t' = t) (fun _ => rfl) _⟩, ?_⟩
  simp only [Retexted, RetextedV, RetextedArgs, and_true, true_and]
  exact ⟨replaces_example.2.1, replaces_example.1, replaces_refl _⟩

/-- That the text begins with a blank matters: in `\a b` the text is ` b`; if it becomes `b`, the document reads `\ab`, another command. -/
theorem C106_needed :
    Survives [.mk 1 (.command (.mk chars!"a" [])), .mk 1 (.text chars!" b")] ∧
    ¬ Survives [.mk 1 (.command (.mk chars!"a" [])), .mk 1 (.text chars!"b")] := by
  refine ⟨⟨_, by decide +kernel, retexted_refl (R := fun t t' => t' = t) (fun _ => rfl) _⟩, ?_⟩
  rintro ⟨d', h1, h2⟩
  have : fromStr chars!"\\ab" = .ok [.mk 1 (.command (.mk chars!"ab" []))] := by decide +kernel
  have h3 : displayChunks [.mk 1 (.command (.mk chars!"a" [])), .mk 1 (.text chars!"b")] = chars!"\\ab" := by decide +kernel
  rw [h3, this] at h1
  cases h1
  simp [SameButLines, Retexted] at h2

end LatexAst.Ast1

namespace LatexAst.Ast2
open Spec

mutual
theorem sameV_refl : ∀ v : ChunkVariant, RetextedV (fun t t' => t' = t) v v
  | .text t => by simp [RetextedV]
  | .scope (.mk a v) => by simp [RetextedV, same_refl a]
  | .command (.mk l args) => by simp [RetextedV, sameArgs_refl args]
  | .environment (.mk l args content pb pe) => by simp [RetextedV, sameArgs_refl args, same_refl content]
theorem same_refl : ∀ cs : List Chunk, Retexted (fun t t' => t' = t) cs cs
  | [] => by simp [Retexted]
  | .mk _ v :: cs => by simp [Retexted, sameV_refl v, same_refl cs]
theorem sameArgs_refl : ∀ args : List (Str × Scope), RetextedArgs (fun t t' => t' = t) args args
  | [] => by simp [RetextedArgs]
  | (p, .mk a v) :: r => by simp [RetextedArgs, same_refl a, sameArgs_refl r]
end

/-- C106, stage 2. -/
theorem C106 (e e1 : Document) (h : Survives e) (hr : Retexted Replaces e e1) : Survives e1 := by
  obtain ⟨e0, h0, hs⟩ := h
  have hr0 : Retexted Replaces e0 e1 := retexted_both (by rintro t t1 t2 rfl h; exact h) hs hr
  obtain ⟨d0, hd0, ht0⟩ := fromStr_parts h0
  have hdisp : Ast1.displayChunks d0 = displayChunks e := by rw [← display_tryFrom ht0, same_display hs]
  have hcan : Ast1.Canonical d0 := (Ast1.C03_exact d0).1 (by rw [hdisp]; exact hd0)
  obtain ⟨d1, h1, h2, h3⟩ := (((C53_parsed _ d0 hd0).1 e0).1 h0).pulls e0 e1 rfl hr0
  have hp := Ast1.printable_parse (Ast1.printable_retexted h1 fun lv hl => (hcan lv hl).1)
  rw [h2] at hp
  obtain ⟨_, e2, h4, h5⟩ := h3 _ (relined_renum d1 .none 1)
  exact ⟨e2, ((C53_parsed _ _ hp).1 e2).2 h4, h5⟩

/-- C106, stage 2: documents it is about, among those parsed. -/
theorem C106_parsed (s : Str) (d : Ast1.Document) (e : Document) (hd : Ast1.fromStr s = .ok d) (he : fromStr s = .ok e)
    (h1 : Ast1.NoScopeInCurlyArgument d) (h2 : Ast1.NoCloserInScope d) : Survives e :=
  ⟨e, C71_parsed s d e hd he h1 h2, same_refl e⟩

/-- The hypotheses are met: a text inside an environment with an argument, which itself is inside an argument. -/
theorem C106_example :
    Survives [.mk 1 (.command (.mk chars!"foo" [([], .mk [.mk 1 (.environment (.mk chars!"it" [([], .mk [.mk 1 (.text chars!" x")] .round)]
      [.mk 1 (.text chars!"a")] [] []))] .square)])), .mk 1 (.text chars!" b")] ∧
    Retexted Replaces
      [.mk 1 (.command (.mk chars!"foo" [([], .mk [.mk 1 (.environment (.mk chars!"it" [([], .mk [.mk 1 (.text chars!" x")] .round)]
        [.mk 1 (.text chars!"a")] [] []))] .square)])), .mk 1 (.text chars!" b")]
      [.mk 1 (.command (.mk chars!"foo" [([], .mk [.mk 1 (.environment (.mk chars!"it" [([], .mk [.mk 1 (.text chars!"\ny\n z")] .round)]
        [.mk 1 (.text chars!" b\n")] [] []))] .square)])), .mk 1 (.text chars!" b")] := by
  refine ⟨⟨_, by decide +kernel, same_refl _⟩, ?_⟩
  simp only [Retexted, RetextedV, RetextedArgs, and_true, true_and]
  exact ⟨⟨Ast1.replaces_example.1, Ast1.replaces_example.2.1⟩, Ast1.replaces_refl _⟩

end LatexAst.Ast2
