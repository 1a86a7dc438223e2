import Verif.Proofs.Chain

/-! # C65: parsed documents all the way back to stage 1 -/

namespace LatexAst.Ast2

/-- C27 for parsed documents: the conversion to stage 1 returns, and keeps the text. -/
theorem C27_parsed (s : Str) (e : Document) (h : fromStr s = .ok e) :
    ∃ d, toAst1 e = .ok d ∧ Ast1.displayChunks d = displayChunks e := toAst1_good (good_of e (envsAll_parsed h) 0)

example : ∃ e, fromStr chars!"\\begin\n{a}[\n]x\\begin{b}\n\\end\n{b}\\end{a}" = .ok e := by
  have h : (fromStr chars!"\\begin\n{a}[\n]x\\begin{b}\n\\end\n{b}\\end{a}").isOk = true := by decide +kernel
  cases he : fromStr chars!"\\begin\n{a}[\n]x\\begin{b}\n\\end\n{b}\\end{a}" with
  | error x => rw [he] at h; cases h
  | ok e => exact ⟨e, rfl⟩

end LatexAst.Ast2

namespace LatexAst.Ast3
open Spec

theorem becomes_body {l args content pb pe l' env} (h : Becomes [.mk l (.environment (.mk chars!"document" args content pb pe))]
      (.ok [.mk l' (.environment env)]))
    (ha : ∀ x ∈ args, ∀ c ∈ Ast2.Scope.chunks x.2, Ast2.GoodC 0 c) (hc : ∀ c ∈ content, Ast2.GoodC 0 c) :
    ∃ args' content', env = .mk chars!"document" args' content' pb pe ∧
      (∀ x ∈ args', ∀ c ∈ Scope.chunks x.2, GoodC 0 c) ∧ ∀ c ∈ content', GoodC 0 c := by
  obtain ⟨o, h1, h2⟩ := h
  generalize hg : [Ast2.Chunk.mk l (.environment (.mk chars!"document" args content pb pe))] = g at h1
  cases h1 with
  | @environment _ l0 label body pb0 pe0 cs i o items hi hb hr =>
    simp at hg
    obtain ⟨⟨rfl, rfl, rfl, rfl, rfl, rfl⟩, rfl⟩ := hg
    cases hr
    simp only [environmentOutcome] at h2
    cases hao : argOutcome items with
    | error f => rw [hao] at h2; cases h2
    | ok args' =>
      rw [hao] at h2
      cases i with
      | error f => cases h2
      | ok inner =>
        simp [before, inParagraphs, paragraphs, paragraphChunk] at h2
        obtain ⟨rfl, rfl⟩ := h2
        exact ⟨args', _, rfl, good_argOutcome hao fun x hx out ho =>
            good_yields (hi x hx) 0 (ha x.1 (List.mem_map_of_mem hx)) out ho,
          good_paragraphs (good_yields hb 0 hc inner rfl)⟩
  | _ => simp at hg

/-- The parts of a parsed document. -/
theorem good_document {s f} (h : fromStr s = .ok f) : (∀ c ∈ f.preamable, GoodC 0 c) ∧ (∀ c ∈ f.trailing, GoodC 0 c) ∧
    (∀ c ∈ f.body, GoodC 0 c) ∧ ∀ x ∈ f.bodyArgs, ∀ c ∈ Scope.chunks x.2, GoodC 0 c := by
  unfold fromStr at h
  cases he : Ast2.fromStr s with
  | error x => rw [he] at h; cases h
  | ok e =>
    rw [he] at h
    have hall := Ast2.envsAll_parsed he
    have hg := Ast2.good_of e hall
    have hr := (C57 e _).1 h
    cases hr with
    | @document pre post args content pb pe options _ _ hp ht hb _ =>
      have hpre : ∀ c ∈ preambleOf e, c ∈ e := by
        intro c hc; rw [(dropWhile_body e).1]; exact List.mem_append_left _ hc
      have htr : ∀ c ∈ trailingOf e, c ∈ e := by
        intro c hc
        rw [(dropWhile_body e).1]
        exact List.mem_append_right _ ((List.mem_filter.1 hc).1)
      refine ⟨good_becomes hp fun c hc => hg 0 c (hpre c hc), good_becomes ht fun c hc => hg 0 c (htr c hc), ?_⟩
      cases hb with
      | none => simp
      | @last a c l env h1 h2 =>
        have hc : c ∈ bodiesOf e := by rw [h1]; simp
        obtain ⟨hce, hcb⟩ := List.mem_filter.1 hc
        obtain ⟨l0, args0, content0, pb0, pe0, rfl⟩ := isBody_cases hcb
        have g := Ast2.envsAll_sub hall (a := [_]) (by intro x hx; rw [List.mem_singleton] at hx; rw [hx]; exact hce)
        obtain ⟨args', content', h3, h4, h5⟩ := becomes_body h2
          (Ast2.good_of_args args0 fun p i sv hm => Ast2.envsAll_child g (.envArg (List.mem_singleton.2 rfl) hm))
          (Ast2.good_of content0 (Ast2.envsAll_child g (.envContent (List.mem_singleton.2 rfl))) 0)
        cases h3
        exact ⟨h5, h4⟩

/-- C65: a parsed document that converts to stage 2 converts on to stage 1, and the result prints as the document is
written, exactly if its body is empty or there is a line break in the preamble; otherwise the second conversion panics. -/
theorem C65_partial (s : Str) (f : Document) (e : Ast2.Document) (hf : fromStr s = .ok f) (he : toAst2 f = .ok e) :
    (f.body = [] ∨ '\n' ∈ displayChunks f.preamable → ∃ d, Ast2.toAst1 e = .ok d ∧ Ast1.displayChunks d = f.written) ∧
    (¬ (f.body = [] ∨ '\n' ∈ displayChunks f.preamable) → Ast2.toAst1 e = .error .panic) := by
  obtain ⟨gp, gt, gb, ga⟩ := good_document hf
  have hw := (C41_partial f e he).1
  obtain ⟨h1, h2, h3, h4, h5, h6, h7, h8⟩ := (C61 f e).1 he
  rename_i pre body tr k b n items
  have hne : f.body = [] ↔ body = [] := by
    constructor
    · intro h; rw [h] at h2; cases h2; rfl
    · intro h
      subst h
      generalize f.body = g at h2
      generalize ho : ([] : List Ast2.Chunk) = o at h2
      cases h2 with
      | nil => rfl
      | maths _ _ hd _ =>
        exfalso
        simp at ho
        obtain ⟨rfl, _⟩ := ho
        generalize hz : ([] : List Ast2.Chunk) = z at hd
        cases hd with
        | dollar _ _ hcl => subst hz; generalize hz : ([] : List Ast2.Chunk) = z at hcl; cases hcl <;> simp at hz
        | dollars _ _ hcl => subst hz; generalize hz : ([] : List Ast2.Chunk) = z at hcl; cases hcl <;> simp at hz
        | _ => simp at hz
      | _ => simp at ho
  have hk : '\n' ∈ displayChunks f.preamable ↔ 1 ≤ k := by rw [h6, ← List.count_pos_iff]; omega
  rw [hne, hk]
  constructor
  · intro hcond
    rw [← hw]
    apply Ast2.toAst1_good
    intro c hc
    rw [List.mem_append, List.mem_cons] at hc
    rcases hc with hc | rfl | hc
    · exact good_unfolds h1 0 gp c hc
    · refine .environment ?_ (good_withInner2 fun x hx => good_unfolds (h4 x hx) 0 (ga x.1 (by rw [h3]; exact List.mem_map_of_mem hx))) ?_ ?_
      · exact ⟨[.mk 1 (.text chars!"document")], by decide +kernel, by decide +kernel⟩
      · intro hb
        rcases hcond with rfl | h
        · exact absurd rfl hb
        · omega
      · intro c hc
        obtain ⟨c0, hc0, rfl⟩ := List.mem_map.1 hc
        exact ((good_unfolds h2 0 gb c0 hc0).mono _ (by omega)).shift
    · refine Ast2.good_join 0 _ ?_ c hc
      intro c hc
      obtain ⟨c0, hc0, rfl⟩ := List.mem_map.1 hc
      exact ((good_unfolds h5 0 gt c0 hc0).mono _ (by omega)).shift
  · intro hcond
    rw [not_or] at hcond
    rw [Ast2.C60_panics]
    rintro ⟨xs, hx⟩
    have := Ast2.unfolds_env hx (by simpa using hcond.1)
    omega

/-- C65 in full (no panic) is false of the code: the document environment is numbered 0 if no line ends before it. -/
theorem C65_false : ∃ f e, fromStr chars!"\\begin{document}\nx\n\\end{document}" = .ok f ∧ toAst2 f = .ok e ∧
    Ast2.toAst1 e = .error .panic := by
  have h : (match fromStr chars!"\\begin{document}\nx\n\\end{document}" with
      | .ok f => match toAst2 f with
        | .ok e => decide (Ast2.toAst1 e = .error .panic)
        | _ => false
      | _ => false) = true := by decide +kernel
  split at h
  · rename_i f hf
    split at h
    · rename_i e he
      exact ⟨f, e, hf, he, of_decide_eq_true h⟩
    · cases h
  · cases h

/-- The first case, with maths and environments: the source comes back. -/
example : ∃ f e, fromStr chars!"a\n\\begin{document}[\n]$x\n\\begin{b}\ny\\end{b}$\\end{document}\nz" = .ok f ∧ toAst2 f = .ok e ∧
    '\n' ∈ displayChunks f.preamable := by
  have h : (match fromStr chars!"a\n\\begin{document}[\n]$x\n\\begin{b}\ny\\end{b}$\\end{document}\nz" with
      | .ok f => (toAst2 f).isOk && decide ('\n' ∈ displayChunks f.preamable)
      | _ => false) = true := by decide +kernel
  split at h
  · rename_i f hf
    rw [Bool.and_eq_true] at h
    obtain ⟨h1, h2⟩ := h
    cases he : toAst2 f with
    | error x => rw [he] at h1; cases h1
    | ok e => exact ⟨f, e, hf, he, of_decide_eq_true h2⟩
  · cases h

end LatexAst.Ast3
