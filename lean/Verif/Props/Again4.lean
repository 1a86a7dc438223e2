import Verif.Proofs.Again4c

/-!
# Stage 3: a document going to stage 2 and back, in memory (C116)
-/

namespace LatexAst.Ast3
open Spec

/-- What becomes of the parts. -/
theorem trips {d0 d : Ast2.Document} {e : Document} (h : tryFrom d0 = .ok e) (hd : toAst2 e = .ok d) :
    ∃ (pre body post : List Ast2.Chunk) (items : List ((Str × Scope) × List Ast2.Chunk)), Unfolds e.preamable pre ∧
      Trip e.preamable pre ∧ e.bodyArgs = items.map (·.1) ∧ (∀ x ∈ items, Trip x.1.2.chunks x.2) ∧ Trip e.body body ∧ (e.Trails → Trip e.trailing post) ∧
      (∃ tr n, Unfolds e.trailing tr ∧ post = Ast2.joinTexts (tr.map (Ast2.Chunk.shift n))) ∧ Ready e.trailing ∧
      tryFrom d = (match tryArgs mathsFromChunks (withInner2 items) with
        | .error f => .error f
        | .ok args' =>
          match mathsFromChunks body with
          | .error f => .error f
          | .ok content' =>
            match mathsFromChunks pre with
            | .error f => .error f
            | .ok pre' =>
              match mathsFromChunks post with
              | .error f => .error f
              | .ok post' => .ok { classDocument pre with
                  preamable := pre', body := content', bodyArgs := args', bodyBeginPrec := e.bodyBeginPrec, bodyEndPrec := e.bodyEndPrec,
                  trailing := post' }) := by
  obtain ⟨⟨r1, r2, r3, r4⟩, hpre, hpost⟩ := loaded h
  cases (C61 e d).1 hd with
  | @mk pre body tr k b n items h1 h2 h3 h4 h5 h6 h7 h8 =>
    refine ⟨pre, _, _, items, h1, r1.trip0 h1, h3, ?_, r3.trip h2 b, fun ht => trip_trailing n r4 ht h5, ⟨tr, n, h5, rfl⟩, r4, ?_⟩
    · intro x hx
      exact (r2 x.1 (by rw [h3]; exact List.mem_map_of_mem hx)).trip0 (h4 x hx)
    · obtain ⟨a1, a2⟩ := hpre pre h1
      exact tryFrom_body a1 (isBody_same (by rw [Ast2.atoms_joinTexts, Ast2.atoms_shift]) (hpost tr h5)) a2

/-- C116: a document that was converted from stage 2 goes to stage 2 and back without an error
(if what follows the document environment is simple; in general see C116_no_error). -/
theorem C116_no_error_apart {d0 d : Ast2.Document} {e : Document} (h : tryFrom d0 = .ok e) (hd : toAst2 e = .ok d) (ht : e.Trails) :
    (∃ e', tryFrom d = .ok e') ∨ tryFrom d = .error .panic := by
  obtain ⟨pre, body, post, items, h1, t1, h2, t2, t3, t4, t5, t6, hr⟩ := trips h hd
  rw [hr]
  rcases (trip_args t2).1 with a | ⟨args, a, _⟩
  · rw [a]; exact .inr rfl
  · rw [a]
    rcases t3.outcome with b | ⟨out, b, _⟩
    · rw [b]; exact .inr rfl
    · rw [b]
      rcases t1.outcome with c | ⟨out1, c, _⟩
      · rw [c]; exact .inr rfl
      · rw [c]
        rcases (t4 ht).outcome with g | ⟨out2, g, _⟩
        · rw [g]; exact .inr rfl
        · rw [g]; exact .inl ⟨_, rfl⟩

/-- C116, when it panics: exactly if some formula in dollar signs, in any section, has something in it that is numbered more than one
line above its closing. -/
theorem C116_returns_apart {d0 d : Ast2.Document} {e : Document} (h : tryFrom d0 = .ok e) (hd : toAst2 e = .ok d) (ht : e.Trails) :
    (∃ e', tryFrom d = .ok e') ↔ e.Sections fun cs => ∀ k content, Within cs (.mathsBlock (.mk .dollars k content)) → ¬ Strays content := by
  obtain ⟨pre, body, post, items, h1, t1, h2, t2, t3, t4, t5, t6, hr⟩ := trips h hd
  have e1 := t1.returns
  have e2 := (trip_args t2).2
  have e3 := t3.returns
  have e4 := (t4 ht).returns
  rw [← h2] at e2
  have : e.Sections (EveryDollars (¬ Strays ·)) ↔ (∃ out, mathsFromChunks pre = .ok out) ∧ (∃ args, tryArgs mathsFromChunks (withInner2 items) = .ok args) ∧
      (∃ out, mathsFromChunks body = .ok out) ∧ ∃ out, mathsFromChunks post = .ok out := by
    rw [e1, e2, e3, e4]; rfl
  refine Iff.trans ?_ this.symm
  rw [hr]
  constructor
  · rintro ⟨e', he⟩
    cases ha : tryArgs mathsFromChunks (withInner2 items) with
    | error f => rw [ha] at he; cases he
    | ok args =>
      cases hb : mathsFromChunks body with
      | error f => rw [ha, hb] at he; cases he
      | ok body' =>
        cases hp : mathsFromChunks pre with
        | error f => rw [ha, hb, hp] at he; cases he
        | ok pre' =>
          cases hq : mathsFromChunks post with
          | error f => rw [ha, hb, hp, hq] at he; cases he
          | ok post' => exact ⟨⟨_, rfl⟩, ⟨_, rfl⟩, ⟨_, rfl⟩, _, rfl⟩
  · rintro ⟨⟨a, ha⟩, ⟨b, hb⟩, ⟨c, hc⟩, g, hg⟩
    rw [ha, hb, hc, hg]
    exact ⟨_, rfl⟩

/-- C116: such a document comes back the same, apart from line numbers, exactly if no formula in dollar signs in any section has a piece
of text before its end, and the class and the options are still those that the preamble names. -/
theorem C116_apart {d0 d : Ast2.Document} {e e' : Document} (h : tryFrom d0 = .ok e) (hd : toAst2 e = .ok d) (ht : e.Trails) (h' : tryFrom d = .ok e') :
    e'.noLines = e.noLines ↔ e.Sections OnePiece ∧ e.Named := by
  obtain ⟨pre, body, post, items, h1, t1, h2, t2, t3, t4, t5, t6, hr⟩ := trips h hd
  have e2 := (trip_args t2).1
  have e4 := (t4 ht).outcome
  rw [← h2] at e2
  rw [hr] at h'
  rcases e2 with a | ⟨args, a, a'⟩
  · rw [a] at h'; cases h'
  · rcases t3.outcome with b | ⟨out, b, b'⟩
    · rw [a, b] at h'; cases h'
    · rcases t1.outcome with c | ⟨out1, c, c'⟩
      · rw [a, b, c] at h'; cases h'
      · rcases e4 with g | ⟨out2, g, g'⟩
        · rw [a, b, c, g] at h'; cases h'
        · rw [a, b, c, g] at h'
          cases h'
          have hc := class_same (a := pre) (b := Ast3.spelled e.preamable) (by rw [atoms_unfolds h1, atoms_spelled])
          have hn : e.Named ↔ (classDocument pre).documentclass = e.documentclass ∧ (classDocument pre).documentoptions = e.documentoptions := by
            simp only [Document.Named, classDocument, hc.1, hc.2, readsLists_iff]
            exact and_congr eq_comm Iff.rfl
          rw [hn]
          simp only [Document.noLines, Document.Sections, Document.mk.injEq, ← a', ← b', ← c', ← g', true_and]
          constructor
          · rintro ⟨x1, x2, x3, x4, x5, x6⟩
            exact ⟨⟨x3, x5, x4, x6⟩, x1, x2⟩
          · rintro ⟨⟨x3, x5, x4, x6⟩, x1, x2⟩
            exact ⟨x1, x2, x3, x4, x5, x6⟩

/-- C116, the class: what comes back has the class and the options that the `\documentclass` commands in the preamble name. -/
theorem C116_class {d0 d : Ast2.Document} {e e' : Document} (h : tryFrom d0 = .ok e) (hd : toAst2 e = .ok d) (h' : tryFrom d = .ok e') :
    e'.documentclass = (classNames (classArgs (Ast3.spelled e.preamable))).head? ∧
    ReadsLists (optionLists (classArgs (Ast3.spelled e.preamable))) e'.documentoptions := by
  obtain ⟨pre, body, post, items, h1, t1, h2, t2, t3, t4, t5, t6, hr⟩ := trips h hd
  have hc := class_same (a := pre) (b := Ast3.spelled e.preamable) (by rw [atoms_unfolds h1, atoms_spelled])
  rw [hr] at h'
  rw [readsLists_iff, ← hc.1, ← hc.2]
  split at h'
  · cases h'
  · split at h'
    · cases h'
    · split at h'
      · cases h'
      · split at h'
        · cases h'
        · cases h'; exact ⟨rfl, rfl⟩

/-- C116, the class: a document that was converted from stage 2 has the class and the options that its own preamble names, if the
arguments of the `\documentclass` commands have no maths in them, or only maths whose text is kept. -/
theorem C116_named {d0 : Ast2.Document} {e : Document} (h : tryFrom d0 = .ok e)
    (hk : ∀ x ∈ classArgs (preambleOf d0), KeepsText x.2.chunks) : e.Named := by
  have h := (C57 d0 _).1 h
  cases h with
  | document h1 h2 h3 h4 h5 h6 =>
    obtain ⟨n1, n2⟩ := named_made (becomes_ok.1 h3) hk
    exact ⟨by rw [n1], by rw [n2]; exact h6⟩

/-- C116, going again: after going to stage 2 and back once, going again changes nothing more (apart from line numbers). -/
theorem C116_settles_apart {d0 d d2 : Ast2.Document} {e e1 e2 : Document} (h : tryFrom d0 = .ok e) (hd : toAst2 e = .ok d) (ht : e.Trails) (h1 : tryFrom d = .ok e1)
    (hd2 : toAst2 e1 = .ok d2) (ht1 : e1.Trails) (hn : e1.Named) (h2 : tryFrom d2 = .ok e2) : e2.noLines = e1.noLines := by
  refine (C116_apart h1 hd2 ht1 h2).2 ⟨?_, hn⟩
  obtain ⟨pre, body, post, items, _, t1, _, t2, t3, t4, t5, t6, hr⟩ := trips h hd
  rw [hr] at h1
  cases ha : tryArgs mathsFromChunks (withInner2 items) with
  | error f => rw [ha] at h1; cases h1
  | ok args =>
    cases hb : mathsFromChunks body with
    | error f => rw [ha, hb] at h1; cases h1
    | ok body' =>
      cases hp : mathsFromChunks pre with
      | error f => rw [ha, hb, hp] at h1; cases h1
      | ok pre' =>
        cases hq : mathsFromChunks post with
        | error f => rw [ha, hb, hp, hq] at h1; cases h1
        | ok post' =>
          rw [ha, hb, hp, hq] at h1
          cases h1
          exact ⟨t1.settles _ hp, settles_args t2 _ ha, t3.settles _ hb, (t4 ht).settles _ hq⟩

/-! ### cases -/

/-- `\documentclass[a4]{art}`, and `x $\alpha b$ y` in the document environment. -/
def sample116 : Ast2.Document :=
  [.mk 1 (.command (.mk chars!"documentclass" [([], .mk [.mk 1 (.text chars!"a4")] .square), ([], .mk [.mk 1 (.text chars!"art")] .curly)])),
    .mk 1 (.text chars!"\n"),
    .mk 2 (.environment (.mk chars!"document" [] [.mk 1 (.text chars!"\nx $"), .mk 2 (.command (.mk chars!"alpha" [])), .mk 2 (.text chars!" b$ y\n")] [] [])),
    .mk 4 (.text chars!"\n\nz")]

/-- What it becomes at stage 3. -/
def sample116_3 : Document where
  documentclass := some chars!"art"
  documentoptions := [(chars!"", chars!"4", none, chars!"")]
  preamable := [.mk 1 (.command (.mk chars!"documentclass" [([], .mk [.mk 1 (.text chars!"a4")] .square), ([], .mk [.mk 1 (.text chars!"art")] .curly)])),
    .mk 1 (.text chars!"\n")]
  body := [.mk 1 (.text chars!"\nx "), .mk 2 (.mathsBlock (.mk .dollars .inline [.mk 1 (.command (.mk chars!"alpha" [])), .mk 1 (.text chars!" b")])),
    .mk 2 (.text chars!" y\n")]
  bodyArgs := []
  bodyBeginPrec := []
  bodyEndPrec := []
  trailing := [.mk 4 (.paragraphBreak chars!"\n\n"), .mk 6 (.text chars!"z")]

theorem sample116_trails : sample116_3.Trails := by
  refine .inl ⟨.break ⟨⟨['\n'], rfl⟩, by unfold Blank; decide, by decide⟩ (.last ⟨by decide, ?_⟩ fun _ => ⟨'z', [], rfl, by decide⟩), by decide +kernel⟩
  rintro ⟨a, w, b, h, _⟩
  have := congrArg (List.count '\n') h
  simp [List.count_append, List.count_cons] at this

/-- Going to stage 2 and back, computed. -/
def goes (e : Document) (p : Document → Bool) : Bool :=
  match toAst2 e with
  | .ok d => match tryFrom d with
    | .ok e' => p e'
    | _ => false
  | _ => false

theorem goes_iff {e p} : goes e p = true ↔ ∃ d e', toAst2 e = .ok d ∧ tryFrom d = .ok e' ∧ p e' = true := by
  unfold goes
  constructor
  · intro h
    split at h
    · next d hd =>
      split at h
      · next e' he => exact ⟨d, e', hd, he, h⟩
      · cases h
    · cases h
  · rintro ⟨d, e', hd, he, h⟩
    rw [hd]
    show (match tryFrom d with | .ok e' => p e' | _ => false) = true
    rw [he]; exact h

/-- A case that comes back: all that C116 asks for holds. -/
theorem C116_case : tryFrom sample116 = .ok sample116_3 ∧ sample116_3.Trails ∧
    ∃ d e', toAst2 sample116_3 = .ok d ∧ tryFrom d = .ok e' ∧ e'.noLines = sample116_3.noLines ∧ sample116_3.Sections OnePiece ∧ sample116_3.Named := by
  have h0 : tryFrom sample116 = .ok sample116_3 := by decide +kernel
  have hg : goes sample116_3 (fun e' => decide (e'.noLines = sample116_3.noLines)) = true := by decide +kernel
  obtain ⟨d, e', h1, h2, h3⟩ := goes_iff.1 hg
  have h3 := of_decide_eq_true h3
  exact ⟨h0, sample116_trails, d, e', h1, h2, h3, (C116_apart h0 h1 sample116_trails h2).1 h3⟩

/-- `\documentclass{$a\alpha b$}`. -/
def sample116b : Ast2.Document :=
  [.mk 1 (.command (.mk chars!"documentclass" [([], .mk [.mk 1 (.text chars!"$a"), .mk 1 (.command (.mk chars!"alpha" [])), .mk 1 (.text chars!" b$")] .curly)])),
    .mk 1 (.text chars!"\n"), .mk 2 (.environment (.mk chars!"document" [] [.mk 1 (.text chars!"\nx\n")] [] [])), .mk 4 (.text chars!"\n")]

/-- What it becomes at stage 3: the class is `$a\alpha b$`, the preamble has `\documentclass{a$\alpha b$}`. -/
def sample116b_3 : Document where
  documentclass := some chars!"$a\\alpha b$"
  documentoptions := []
  preamable := [.mk 1 (.command (.mk chars!"documentclass" [([], .mk [.mk 1 (.text chars!"a"),
    .mk 1 (.mathsBlock (.mk .dollars .inline [.mk 1 (.command (.mk chars!"alpha" [])), .mk 1 (.text chars!" b")]))] .curly)])), .mk 1 (.text chars!"\n")]
  body := [.mk 1 (.text chars!"\nx\n")]
  bodyArgs := []
  bodyBeginPrec := []
  bodyEndPrec := []
  trailing := [.mk 4 (.text chars!"\n")]

/-- A case in which it is the class that changes: no formula has text before its end, but the class is not the one that the preamble
names, and it changes from `$a\alpha b$` to `a$\alpha b$`. -/
theorem C116_unnamed : tryFrom sample116b = .ok sample116b_3 ∧ ¬ sample116b_3.Named ∧
    ∃ d e', toAst2 sample116b_3 = .ok d ∧ tryFrom d = .ok e' ∧ sample116b_3.documentclass = some chars!"$a\\alpha b$" ∧
      e'.documentclass = some chars!"a$\\alpha b$" ∧ e'.preamable = sample116b_3.preamable := by
  have h0 : tryFrom sample116b = .ok sample116b_3 := by decide +kernel
  have hg : goes sample116b_3 (fun e' => decide (e'.documentclass = some chars!"a$\\alpha b$" ∧ e'.preamable = sample116b_3.preamable)) = true := by decide +kernel
  obtain ⟨d, e', h1, h2, h3⟩ := goes_iff.1 hg
  have h3 := of_decide_eq_true h3
  refine ⟨h0, ?_, d, e', h1, h2, rfl, h3⟩
  rintro ⟨hn, _⟩
  rw [← (C116_class h0 h1 h2).1, h3.1] at hn
  revert hn; decide

end LatexAst.Ast3
