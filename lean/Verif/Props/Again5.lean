import Verif.Props.Again4
import Verif.Proofs.Again5d

/-!
# Stage 3: any document going to stage 2 and back, in memory (C116, without conditions on what follows the document environment)
-/

namespace LatexAst.Ast3
open Spec

/-- What going to stage 2 and back does to what follows the document environment. -/
structure TripAfter (cs : List Chunk) (D : List Ast2.Chunk) : Prop where
  outcome : mathsFromChunks D = .error .panic ∨ ∃ out, mathsFromChunks D = .ok out ∧ (noLines out = noLines cs ↔ Tidy cs)
  settles : ∀ out, mathsFromChunks D = .ok out → Tidy out

theorem Ready.tripAfter {cs tr} (h : Ready cs) (hu : Unfolds cs tr) (n : Nat) : TripAfter cs (Ast2.joinTexts (tr.map (Ast2.Chunk.shift n))) := by
  obtain ⟨⟨x, hx⟩, _⟩ := h
  obtain ⟨out', hr⟩ := rejoins_ex hx []
  have this : mathsFromChunks (Ast2.joinTexts (tr.map (Ast2.Chunk.shift n))) = .error .panic ∨
      ∃ out, mathsFromChunks (Ast2.joinTexts (tr.map (Ast2.Chunk.shift n))) = .ok out ∧ noLines out = noLines out' :=
    gives_maths fun _ hy => gives_start (fun D b o hD hy => hr.gives (by simp) hu hD hy) (by rw [variants_join, variants_shift]) hy
  constructor
  · rcases this with h1 | ⟨out, h1, h2⟩
    · exact .inl h1
    · have := hr.same (P := []) (by simp) rfl
      rw [List.nil_append] at this
      exact .inr ⟨out, h1, by rw [h2]; exact this⟩
  · intro out ho
    rcases this with h1 | ⟨out2, h1, h2⟩
    · rw [ho] at h1; cases h1
    · rw [ho] at h1
      cases h1
      exact tidy_same hr.tidy h2.symm

/-- Each section comes back the same: the preamble, the arguments of the document environment and the body as in C115, and what follows the
document environment with texts put together. -/
def Document.Stays (f : Document) : Prop :=
  OnePiece f.preamable ∧ (∀ x ∈ f.bodyArgs, OnePiece x.2.chunks) ∧ OnePiece f.body ∧ Tidy f.trailing

/-- What comes back, section by section. -/
theorem backs {d0 d : Ast2.Document} {e : Document} (h : tryFrom d0 = .ok e) (hd : toAst2 e = .ok d) :
    (tryFrom d = .error .panic ∨ ∃ e', tryFrom d = .ok e') ∧ ∀ e', tryFrom d = .ok e' → e'.Stays ∧ (e'.noLines = e.noLines ↔ e.Stays ∧ e.Named) ∧
      (e.Stays → noLines e'.preamable = noLines e.preamable) := by
  obtain ⟨pre, body, post, items, h1, t1, h2, t2, t3, _, ⟨tr, n, t4, rfl⟩, t5, hr⟩ := trips h hd
  have t4 := t5.tripAfter t4 n
  have e2 := (trip_args t2).1
  rw [← h2] at e2
  rw [hr]
  rcases e2 with a | ⟨args, a, a'⟩
  · rw [a]; exact ⟨.inl rfl, by intro e' h; cases h⟩
  · rcases t3.outcome with b | ⟨out, b, b'⟩
    · rw [a, b]; exact ⟨.inl rfl, by intro e' h; cases h⟩
    · rcases t1.outcome with c | ⟨out1, c, c'⟩
      · rw [a, b, c]; exact ⟨.inl rfl, by intro e' h; cases h⟩
      · rcases t4.outcome with g | ⟨out2, g, g'⟩
        · rw [a, b, c, g]; exact ⟨.inl rfl, by intro e' h; cases h⟩
        · rw [a, b, c, g]
          refine ⟨.inr ⟨_, rfl⟩, ?_⟩
          intro e' h'
          cases h'
          have hc := class_same (a := pre) (b := Ast3.spelled e.preamable) (by rw [atoms_unfolds h1, atoms_spelled])
          have hn : e.Named ↔ (classDocument pre).documentclass = e.documentclass ∧ (classDocument pre).documentoptions = e.documentoptions := by
            simp only [Document.Named, classDocument, hc.1, hc.2, readsLists_iff]
            exact and_congr eq_comm Iff.rfl
          refine ⟨⟨t1.settles _ c, settles_args t2 _ a, t3.settles _ b, t4.settles _ g⟩, ?_, fun hs => c'.2 hs.1⟩
          rw [hn]
          simp only [Document.noLines, Document.Stays, Document.mk.injEq, ← a', ← b', ← c', ← g', true_and]
          constructor
          · rintro ⟨x1, x2, x3, x4, x5, x6⟩
            exact ⟨⟨x3, x5, x4, x6⟩, x1, x2⟩
          · rintro ⟨⟨x3, x5, x4, x6⟩, x1, x2⟩
            exact ⟨x1, x2, x3, x4, x5, x6⟩

/-- C116: a document that was converted from stage 2 goes to stage 2 and back without an error. -/
theorem C116_no_error {d0 d : Ast2.Document} {e : Document} (h : tryFrom d0 = .ok e) (hd : toAst2 e = .ok d) :
    (∃ e', tryFrom d = .ok e') ∨ tryFrom d = .error .panic := (backs h hd).1.symm

/-- C116: such a document comes back the same, apart from line numbers, exactly if no formula in dollar signs before what follows the
document environment has a piece of text before its end, if what follows the document environment is cut up as if texts next to each other
were put together, and if the class and the options are still those that the preamble names. -/
theorem C116 {d0 d : Ast2.Document} {e e' : Document} (h : tryFrom d0 = .ok e) (hd : toAst2 e = .ok d) (h' : tryFrom d = .ok e') :
    e'.noLines = e.noLines ↔
      (OnePiece e.preamable ∧ (∀ x ∈ e.bodyArgs, OnePiece x.2.chunks) ∧ OnePiece e.body ∧ Tidy e.trailing) ∧ e.Named :=
  ((backs h hd).2 e' h').2.1

/-- C116, going again: after going to stage 2 and back once, going again changes nothing more (apart from line numbers), exactly if
the class and the options are those that the preamble names. -/
theorem C116_settles {d0 d d2 : Ast2.Document} {e e1 e2 : Document} (h : tryFrom d0 = .ok e) (hd : toAst2 e = .ok d) (h1 : tryFrom d = .ok e1)
    (hd2 : toAst2 e1 = .ok d2) (h2 : tryFrom d2 = .ok e2) : e2.noLines = e1.noLines ↔ e1.Named := by
  rw [((backs h1 hd2).2 e2 h2).2.1]
  exact ⟨fun h => h.2, fun hn => ⟨((backs h hd).2 e1 h1).1, hn⟩⟩

/-- C116, going a third time: after going to stage 2 and back twice, going again never changes anything more. -/
theorem C116_settles_twice {d0 d d2 d3 : Ast2.Document} {e e1 e2 e3 : Document} (h : tryFrom d0 = .ok e) (hd : toAst2 e = .ok d) (h1 : tryFrom d = .ok e1)
    (hd2 : toAst2 e1 = .ok d2) (h2 : tryFrom d2 = .ok e2) (hd3 : toAst2 e2 = .ok d3) (h3 : tryFrom d3 = .ok e3) : e3.noLines = e2.noLines := by
  rw [C116_settles h1 hd2 h2 hd3 h3]
  have hs := ((backs h1 hd2).2 e2 h2).2.2 ((backs h hd).2 e1 h1).1
  have hc := class_same (a := Ast3.spelled e1.preamable) (b := Ast3.spelled e2.preamable) (by rw [atoms_spelled, atoms_spelled, atoms_noLines hs])
  have := C116_class h1 hd2 h2
  unfold Document.Named
  rw [← hc.1, ← hc.2]
  exact this

/-- What follows the document environment is numbered from 1 if the texts at stage 2 are. -/
theorem trailing_numbered {d0 : Ast2.Document} {e : Document} (h0 : ∀ l t, .mk l (.text t) ∈ d0 → 1 ≤ l) (h : tryFrom d0 = .ok e) : Numbered e.trailing := by
  cases (C57 d0 _).1 h with
  | document _ _ _ h4 _ _ =>
    obtain ⟨raw, h1, h2⟩ := (C55_ok _ _).1 (becomes_ok.1 h4)
    simp only [h2]
    refine yields_numbered h1 ?_ raw rfl
    intro l t hm
    exact h0 l t ((List.dropWhile_sublist _).subset (List.mem_filter.1 hm).1)

/-- C116, when it panics: if texts are numbered from 1 (as they are in everything that is parsed), it does not exactly if in the sections
before what follows the document environment no formula in dollar signs has something in it that is numbered more than one line above its
closing, and if what follows the document environment has none when texts are put together. -/
theorem C116_returns {d0 d : Ast2.Document} {e : Document} (h0 : ∀ l t, .mk l (.text t) ∈ d0 → 1 ≤ l) (h : tryFrom d0 = .ok e) (hd : toAst2 e = .ok d) :
    (∃ e', tryFrom d = .ok e') ↔
      (∀ k content, Within e.preamable (.mathsBlock (.mk .dollars k content)) → ¬ Strays content) ∧
      (∀ x ∈ e.bodyArgs, ∀ k content, Within x.2.chunks (.mathsBlock (.mk .dollars k content)) → ¬ Strays content) ∧
      (∀ k content, Within e.body (.mathsBlock (.mk .dollars k content)) → ¬ Strays content) ∧ Firm e.trailing := by
  have hnum := trailing_numbered h0 h
  obtain ⟨pre, body, post, items, h1, t1, h2, t2, t3, _, ⟨tr, n, t4, rfl⟩, ⟨⟨x, t5⟩, t6⟩, hr⟩ := trips h hd
  have e1 := t1.returns
  have e2 := (trip_args t2).2
  have e3 := t3.returns
  have e4 : (∃ out, mathsFromChunks (Ast2.joinTexts (tr.map (Ast2.Chunk.shift n))) = .ok out) ↔ Firm e.trailing := by
    rw [goes_maths]
    have := Firmly.start (s := n) (t5.firmly t6 hnum) hnum t4 0
    obtain ⟨o, ho⟩ := yields_total 0 (Ast2.joinTexts (tr.map (Ast2.Chunk.shift n)))
    exact ⟨fun h => (this o ho).1 (h o ho), fun h o ho => (this o ho).2 h⟩
  rw [← h2] at e2
  refine Iff.trans ?_ (and_congr e1 (and_congr e2 (and_congr e3 e4)))
  rw [hr]
  constructor
  · rintro ⟨e', he⟩
    cases ha : tryArgs mathsFromChunks (withInner2 items) with
    | error f => rw [ha] at he; cases he
    | ok args =>
      cases hb : mathsFromChunks body with
      | error f => rw [ha, hb] at he; cases he
      | ok body' =>
        cases hp : mathsFromChunks pre with
        | error f => rw [ha, hb, hp] at he; cases he
        | ok pre' =>
          cases hq : mathsFromChunks (Ast2.joinTexts (tr.map (Ast2.Chunk.shift n))) with
          | error f => rw [ha, hb, hp, hq] at he; cases he
          | ok post' => exact ⟨⟨_, rfl⟩, ⟨_, rfl⟩, ⟨_, rfl⟩, _, rfl⟩
  · rintro ⟨⟨a, ha⟩, ⟨b, hb⟩, ⟨c, hc⟩, g, hg⟩
    rw [hc, ha, hb, hg]
    exact ⟨_, rfl⟩

/-! ### cases -/

/-- `\n$a\n\nb$` after the document environment. -/
def sample116c : Ast2.Document :=
  [.mk 1 (.environment (.mk chars!"document" [] [.mk 1 (.text chars!"\nx\n")] [] [])), .mk 3 (.text chars!"\n$a\n\nb$ c")]

/-- What it becomes at stage 3. -/
def sample116c_3 : Document where
  documentclass := none
  documentoptions := []
  preamable := []
  body := [.mk 1 (.text chars!"\nx\n")]
  bodyArgs := []
  bodyBeginPrec := []
  bodyEndPrec := []
  trailing := [.mk 3 (.text chars!"\n"), .mk 4 (.mathsBlock (.mk .dollars .inline [.mk 1 (.text chars!"a"), .mk 1 (.paragraphBreak chars!"\n\n"),
    .mk 3 (.text chars!"b")])), .mk 6 (.text chars!" c")]

/-- A case that comes back although a formula in dollar signs has text before its end: after the document environment it keeps it. -/
theorem C116_case_after : tryFrom sample116c = .ok sample116c_3 ∧ ¬ OnePiece sample116c_3.trailing ∧
    ∃ d e', toAst2 sample116c_3 = .ok d ∧ tryFrom d = .ok e' ∧ e'.noLines = sample116c_3.noLines ∧ sample116c_3.Stays ∧ sample116c_3.Named := by
  have h0 : tryFrom sample116c = .ok sample116c_3 := by decide +kernel
  have hg : goes sample116c_3 (fun e' => decide (e'.noLines = sample116c_3.noLines)) = true := by decide +kernel
  obtain ⟨d, e', h1, h2, h3⟩ := goes_iff.1 hg
  have h3 := of_decide_eq_true h3
  refine ⟨h0, ?_, d, e', h1, h2, h3, (C116 h0 h1 h2).1 h3⟩
  intro h
  have := h .inline _ (.here (l := 4) (.tail _ (.head _))) [] (.mk 1 (.text chars!"a")) _ rfl (.inl ⟨_, rfl⟩)
  simp at this

/-- `x $a\alpha b$` after the document environment. -/
def sample116d : Ast2.Document :=
  [.mk 1 (.environment (.mk chars!"document" [] [.mk 1 (.text chars!"\ny\n")] [] [])), .mk 3 (.text chars!"x $a"), .mk 3 (.command (.mk chars!"alpha" [])),
    .mk 3 (.text chars!" b$")]

/-- What it becomes at stage 3: `x `, `a`, `$\alpha b$`. -/
def sample116d_3 : Document where
  documentclass := none
  documentoptions := []
  preamable := []
  body := [.mk 1 (.text chars!"\ny\n")]
  bodyArgs := []
  bodyBeginPrec := []
  bodyEndPrec := []
  trailing := [.mk 3 (.text chars!"x "), .mk 3 (.text chars!"a"), .mk 3 (.mathsBlock (.mk .dollars .inline [.mk 1 (.command (.mk chars!"alpha" [])),
    .mk 1 (.text chars!" b")]))]

/-- A case that does not come back although no formula has text before its end: two texts become one, `x a`. -/
theorem C116_joins : tryFrom sample116d = .ok sample116d_3 ∧ ¬ Tidy sample116d_3.trailing ∧
    ∃ d e', toAst2 sample116d_3 = .ok d ∧ tryFrom d = .ok e' ∧ e'.trailing.map Chunk.variant = [.text chars!"x a",
      .mathsBlock (.mk .dollars .inline [.mk 1 (.command (.mk chars!"alpha" [])), .mk 1 (.text chars!" b")])] := by
  have h0 : tryFrom sample116d = .ok sample116d_3 := by decide +kernel
  have hg : goes sample116d_3 (fun e' => decide (e'.trailing.map Chunk.variant = [.text chars!"x a",
      .mathsBlock (.mk .dollars .inline [.mk 1 (.command (.mk chars!"alpha" [])), .mk 1 (.text chars!" b")])])) = true := by decide +kernel
  obtain ⟨d, e', h1, h2, h3⟩ := goes_iff.1 hg
  have h3 := of_decide_eq_true h3
  refine ⟨h0, ?_, d, e', h1, h2, h3⟩
  intro h
  cases h with
  | mk h _ _ _ =>
    have := h [] [.mk 3 (.text chars!"x "), .mk 3 (.text chars!"a")] _ rfl (by
      intro c hc
      simp only [List.mem_cons, List.not_mem_nil, or_false] at hc
      rcases hc with rfl | rfl <;> exact .inl ⟨_, rfl⟩) (by simp) (by
      intro c b' he
      cases he
      exact maths_not_text)
    cases this

/-- `\n$\alpha a\n\nb$\n`, once in the document environment. -/
def sample116e : Ast2.Document :=
  [.mk 1 (.environment (.mk chars!"document" [] [.mk 1 (.text chars!"\n$"), .mk 2 (.command (.mk chars!"alpha" [])), .mk 2 (.text chars!" a\n\nb$\n")] [] []))]

/-- The same after the document environment. -/
def sample116f : Ast2.Document :=
  [.mk 1 (.environment (.mk chars!"document" [] [.mk 1 (.text chars!"\nx\n")] [] [])), .mk 3 (.text chars!"\n$"),
    .mk 4 (.command (.mk chars!"alpha" [])), .mk 4 (.text chars!" a\n\nb$\n")]

/-- Whether it panics on the way back. -/
def panicsBack (d : Ast2.Document) : Bool :=
  match tryFrom d with
  | .ok e => match toAst2 e with
    | .ok d => decide (tryFrom d = .error .panic)
    | _ => false
  | _ => false

/-- Whether it comes back. -/
def comesBackFrom (d : Ast2.Document) : Bool :=
  match tryFrom d with
  | .ok e => goes e fun _ => true
  | _ => false

/-- A formula that makes it panic in the body, but not after the document environment. -/
theorem C116_returns_case : (∃ e d, tryFrom sample116e = .ok e ∧ toAst2 e = .ok d ∧ tryFrom d = .error .panic) ∧
    (∀ l t, .mk l (.text t) ∈ sample116f → 1 ≤ l) ∧
    ∃ e d e', tryFrom sample116f = .ok e ∧ toAst2 e = .ok d ∧ tryFrom d = .ok e' ∧ Firm e.trailing := by
  have h1 : panicsBack sample116e = true := by decide +kernel
  have h2 : comesBackFrom sample116f = true := by decide +kernel
  have h0 : ∀ l t, .mk l (.text t) ∈ sample116f → 1 ≤ l := by
    intro l t hm
    simp only [sample116f, List.mem_cons, List.not_mem_nil, or_false, Ast2.Chunk.mk.injEq, reduceCtorEq, and_false, false_or] at hm
    omega
  refine ⟨?_, h0, ?_⟩
  · unfold panicsBack at h1
    split at h1
    · next e he =>
      split at h1
      · next d hd => exact ⟨e, d, he, hd, of_decide_eq_true h1⟩
      · cases h1
    · cases h1
  · unfold comesBackFrom at h2
    split at h2
    · next e he =>
      obtain ⟨d, e', hd, h3, _⟩ := goes_iff.1 h2
      exact ⟨e, d, e', he, hd, h3, ((C116_returns h0 he hd).1 ⟨e', h3⟩).2.2.2⟩
    · cases h2

end LatexAst.Ast3
