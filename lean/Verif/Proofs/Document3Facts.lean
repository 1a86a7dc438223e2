import Verif.Proofs.Document3
import Verif.Proofs.Lines2
import Verif.Props.Environments

/-!
# Stage 3: failures and nodes of whole documents
-/

namespace LatexAst.Ast3
open Spec

/-! ### The preamble -/

theorem preambleOf_spec (e : List Ast2.Chunk) : (∀ c ∈ preambleOf e, isBody c = false) ∧
    (e = preambleOf e ∨ ∃ l args content pb pe rest,
      e = preambleOf e ++ .mk l (.environment (.mk chars!"document" args content pb pe)) :: rest) := by
  induction e with
  | nil => simp [preambleOf]
  | cons c e ih =>
    unfold preambleOf at *
    by_cases hc : isBody c = true
    · simp only [List.takeWhile_cons, hc]
      refine ⟨by simp, .inr ?_⟩
      obtain ⟨l, v⟩ := c
      cases v with
      | environment env =>
        obtain ⟨label, args, content, pb, pe⟩ := env
        simp [isBody] at hc
        subst hc
        exact ⟨l, args, content, pb, pe, e, rfl⟩
      | _ => simp [isBody] at hc
    · simp only [Bool.not_eq_true] at hc
      simp only [List.takeWhile_cons, hc, Bool.not_false, if_true]
      refine ⟨?_, ?_⟩
      · intro x hx
        rcases List.mem_cons.1 hx with rfl | hx
        · exact hc
        · exact ih.1 x hx
      · rcases ih.2 with h | ⟨l, args, content, pb, pe, rest, h⟩
        · exact .inl (congrArg (c :: ·) h)
        · exact .inr ⟨l, args, content, pb, pe, rest, congrArg (c :: ·) h⟩

theorem preambleOf_no_body {e : List Ast2.Chunk} (h : ∀ c ∈ e, isBody c = false) : preambleOf e = e := by
  obtain ⟨h1, h2 | ⟨l, args, content, pb, pe, rest, h2⟩⟩ := preambleOf_spec e
  · exact h2.symm
  · have := h (.mk l (.environment (.mk chars!"document" args content pb pe))) (by rw [h2]; simp)
    simp [isBody] at this

theorem preambleOf_body {pre post : List Ast2.Chunk} {l args content pb pe} (h : ∀ c ∈ pre, isBody c = false) :
    preambleOf (pre ++ .mk l (.environment (.mk chars!"document" args content pb pe)) :: post) = pre := by
  unfold preambleOf
  rw [List.takeWhile_append_of_pos (fun c hc => by simp [h c hc])]
  simp [isBody]

/-! ### Failures -/

theorem fail_fromChunks {Q E cs} (spec : FailSpec Q E) (h : Ast2.Everywhere Q cs) :
    Post (mathsFromChunks cs) (fun _ => True) E := post_fromChunks fun n => mathsFail spec n cs h

theorem fail_environment {Q E label args content pb pe} (spec : FailSpec Q E)
    (ha : ∀ p inner sv, (p, Ast2.Scope.mk inner sv) ∈ args → Ast2.Everywhere Q inner) (hc : Ast2.Everywhere Q content) :
    Post (tryEnvironment mathsFromChunks (.mk label args content pb pe)) (fun _ => True) E := by
  refine post_tryEnvironment ?_
  refine Post.mono (post_args (Q := fun _ _ => True) trivial ?_) ?_ fun _ h => h
  · intro p inner sv r hm
    exact (fail_fromChunks spec (ha p inner sv hm)).mono (fun _ _ _ _ => trivial) fun _ h => h
  · intro a _
    exact (fail_fromChunks spec hc).mono (fun _ _ => trivial) fun _ h => h

theorem fail_after {Q E cs} (spec : FailSpec Q E) (hQ : Ast2.Everywhere Q cs) :
    ∀ s : DState, s.inPreamable = false → Post (runDocument cs s) (fun _ => True) E := by
  induction cs with
  | nil => intro s _; trivial
  | cons c cs ih =>
    intro s hp
    obtain ⟨l, v⟩ := c
    have ih := ih (hQ.mono fun c hc => .tail _ hc)
    simp only [runDocument]
    by_cases hb : isBody (.mk l v) = true
    · cases v with
      | environment env =>
        obtain ⟨label, args, content, pb, pe⟩ := env
        simp [isBody] at hb
        subst hb
        have hch := (Ast2.everywhere_iff.1 hQ).2
        have := fail_environment (label := chars!"document") (pb := pb) (pe := pe) spec (args := args) (content := content)
          (fun p inner sv hm => hch _ (.envArg (.head _) hm)) (hch _ (.envContent (.head _)))
        simp only [stepDocument, Ast2.Environment.label, if_true]
        cases hr : tryEnvironment mathsFromChunks (.mk chars!"document" args content pb pe) with
        | error f => rw [hr] at this; exact this
        | ok x =>
          obtain ⟨_, _, _, _, _⟩ := x
          exact ih _ rfl
      | _ => simp [isBody] at hb
    · have hstep := run_trailing (cs := [.mk l v]) hp (by simpa using hb)
      simp only [runDocument] at hstep
      cases hr : stepDocument s (.mk l v) with
      | error f => rw [hr] at hstep; cases hstep
      | ok s1 =>
        rw [hr] at hstep
        injection hstep with hstep
        subst hstep
        exact ih _ hp

/-- The class errors. -/
def ClassError (e : List Ast2.Chunk) (f : Fail) : Prop :=
  ∃ a l args b, preambleOf e = a ++ .mk l (.command (.mk chars!"documentclass" args)) :: b ∧ ClassesOk a ∧
    ((f = .err ⟨l, .doubleDocumentClass⟩ ∧ classNames (classArgs a) ≠ []) ∨
     (f = .err ⟨l, .tooManyArgsDocumentClass⟩ ∧ classNames (classArgs a) = [] ∧ 2 ≤ (classNames args).length))

/-- Every failure is a class error of the preamble, or comes from the maths. -/
theorem fail_tryFrom {Q E} {e : List Ast2.Chunk} (spec : FailSpec Q E) (hQ : Ast2.Everywhere Q e) :
    (∃ f, tryFrom e = .error f ∧ ClassError e f) ∨
    (ClassesOk (preambleOf e) ∧ Post (tryFrom e) (fun _ => True) E) := by
  obtain ⟨hb, he⟩ := preambleOf_spec e
  rcases classes_total (preambleOf e) with hok | ⟨a, l, args, b, hp, ha, hbad⟩
  · refine .inr ⟨hok, ?_⟩
    have hsec : ∀ s : DState, runDocument e DState.init = .ok s → (∀ c ∈ s.preamable, c ∈ e) → (∀ c ∈ s.trailing, c ∈ e) →
        Post (tryFrom e) (fun _ => True) E := by
      intro s hs h1 h2
      rw [tryFrom, hs]
      have hp := fail_fromChunks spec (hQ.mono h1)
      have ht := fail_fromChunks spec (hQ.mono h2)
      simp only
      cases hr : mathsFromChunks s.preamable with
      | error f => rw [hr] at hp; exact hp
      | ok x =>
        cases hr2 : mathsFromChunks s.trailing with
        | error f => rw [hr2] at ht; exact ht
        | ok y => trivial
    have hrun := (run_preamble (s := DState.init) rfl hb rfl hok).1
    rw [init_read] at hrun
    rcases he with he | ⟨l, args, content, pb, pe, rest, he⟩
    · rw [← he] at hrun
      exact hsec _ hrun (fun _ h => h) (by simp)
    · have hch := (Ast2.everywhere_iff.1 hQ).2
      have hmem : Ast2.Chunk.mk l (.environment (.mk chars!"document" args content pb pe)) ∈ e := by rw [he]; simp
      have henv := fail_environment (label := chars!"document") (pb := pb) (pe := pe) spec (args := args) (content := content)
        (fun p inner sv hm => hch _ (.envArg hmem hm)) (hch _ (.envContent hmem))
      have hafter := fail_after spec (hQ.mono (cs := rest) (by intro c hc; rw [he]; simp [hc]))
      have hfull : runDocument e DState.init =
          (match tryEnvironment mathsFromChunks (.mk chars!"document" args content pb pe) with
          | .error f => .error f
          | .ok (.mk _ args content begin «end») => runDocument rest ⟨{ classDocument (preambleOf e) with
              bodyArgs := args, body := content, bodyBeginPrec := begin, bodyEndPrec := «end» }, preambleOf e, [], false⟩) := by
        conv => lhs; rw [he]
        rw [runDocument_append, hrun]
        simp only [runDocument, stepDocument, Ast2.Environment.label, if_true]
        cases tryEnvironment mathsFromChunks (.mk chars!"document" args content pb pe) with
        | error f => rfl
        | ok x => obtain ⟨_, _, _, _, _⟩ := x; rfl
      cases hr : tryEnvironment mathsFromChunks (.mk chars!"document" args content pb pe) with
      | error f =>
        rw [hr] at hfull henv
        rw [tryFrom, hfull]
        exact henv
      | ok x =>
        obtain ⟨_, args', content', pb', pe'⟩ := x
        rw [hr] at hfull
        simp only at hfull
        have h1 := hafter ⟨{ classDocument (preambleOf e) with
              bodyArgs := args', body := content', bodyBeginPrec := pb', bodyEndPrec := pe' }, preambleOf e, [], false⟩ rfl
        rw [← hfull] at h1
        cases hr2 : runDocument e DState.init with
        | error f => rw [hr2] at h1; rw [tryFrom, hr2]; exact h1
        | ok s =>
          obtain ⟨_, h3, h4, _⟩ := run_after rfl (hfull ▸ hr2)
          simp only at h3 h4
          refine hsec s hr2 ?_ ?_
          · rw [h3]; intro c hc; rw [he]; simp [hc]
          · rw [h4]; intro c hc; rw [he]; simp at hc; simp [hc.1]
  · refine .inl ?_
    obtain ⟨rest, hrest⟩ : ∃ rest, e = preambleOf e ++ rest := by
      rcases he with he | ⟨l, args, content, pb, pe, rest, he⟩
      · exact ⟨[], by simpa using he⟩
      · exact ⟨_, he⟩
    rw [hp] at hrest hb
    have := tryFrom_class_error (l := l) (args := args) (b := b) (rest := rest) (fun c hc => hb c (by simp [hc])) ha
    rw [← hrest] at this
    rcases hbad with h | ⟨h, h'⟩
    · exact ⟨_, this.1 h, a, l, args, b, hp, ha, .inl ⟨rfl, h⟩⟩
    · exact ⟨_, this.2 h h', a, l, args, b, hp, ha, .inr ⟨rfl, h, h'⟩⟩

/-! ### From stage 1 -/

end LatexAst.Ast3

namespace LatexAst.Ast2

/-- Node properties that pass from stage 1 to stage 2. -/
structure Carries1 (P1 : Ast1.ChunkVariant → Prop) (P2 : ChunkVariant → Prop) : Prop where
  text : ∀ t, P1 (.text t) → P2 (.text t)
  scope : ∀ inner sv inner', P1 (.scope (.mk inner sv)) → P2 (.scope (.mk inner' sv))
  command : ∀ label args args', label ≠ chars!"begin" → label ≠ chars!"end" → P1 (.command (.mk label args)) →
    args'.map (·.1) = args.map (·.1) → P2 (.command (.mk label args'))
  environment : ∀ p lab args p' args' content, P1 (.command (.mk chars!"begin" ((p, .mk lab .curly) :: args))) →
    P1 (.command (.mk chars!"end" [(p', .mk lab .curly)])) → args'.map (·.1) = args.map (·.1) →
    P2 (.environment (.mk (Ast1.displayChunks lab) args' content p p'))

theorem argsRel_prec {R a b} (h : ArgsRel R a b) : b.map (·.1) = a.map (·.1) := by
  induction h with
  | nil => rfl
  | cons _ _ ih => simp [ih]

theorem carry_args {P1 P2 a b} (h : ArgsRel (fun a b => Ast1.AllChunks P1 a → AllChunks P2 b) a b)
    (ha : Ast1.AllArgs P1 a) : AllArgs P2 b := by
  induction h with
  | nil => trivial
  | cons h1 _ ih => exact ⟨h1 ha.1, ih ha.2⟩

theorem allChunks_rebase1 {P1 k a} (h : Ast1.AllChunks P1 a) : Ast1.AllChunks P1 (a.map (rebase1 k)) := by
  induction a with
  | nil => trivial
  | cons c a ih => obtain ⟨l, v⟩ := c; exact ⟨h.1, ih h.2⟩

theorem carry_shape {P1 P2 d e} (hc : Carries1 P1 P2) (h : Shape (fun a b => Ast1.AllChunks P1 a → AllChunks P2 b) d e)
    (hd : Ast1.AllChunks P1 d) : AllChunks P2 e := by
  induction h with
  | nil => trivial
  | text _ ih =>
    rw [Ast1.allChunks_append] at hd
    rw [allChunks_append]; exact ⟨ih hd.1, hc.text _ hd.2.1, trivial⟩
  | scope _ h ih =>
    rw [Ast1.allChunks_append] at hd
    rw [allChunks_append]; exact ⟨ih hd.1, ⟨hc.scope _ _ _ hd.2.1.1, h hd.2.1.2⟩, trivial⟩
  | command _ h1 h2 h ih =>
    rw [Ast1.allChunks_append] at hd
    rw [allChunks_append]
    exact ⟨ih hd.1, ⟨hc.command _ _ _ h1 h2 hd.2.1.1 (argsRel_prec h), carry_args h hd.2.1.2⟩, trivial⟩
  | env _ h1 _ _ h4 ih =>
    rw [Ast1.allChunks_append] at hd
    obtain ⟨hd1, ⟨hb1, hb2⟩, hd2⟩ := hd
    rw [Ast1.allChunks_append] at hd2
    obtain ⟨hbody, ⟨he1, _⟩, _⟩ := hd2
    rw [allChunks_append]
    exact ⟨ih hd1, ⟨hc.environment _ _ _ _ _ _ hb1 he1 (argsRel_prec h1), carry_args h1 hb2.2, h4 (allChunks_rebase1 hbody)⟩, trivial⟩

theorem carry_tryFrom {P1 P2 d e} (hc : Carries1 P1 P2) (h : tryFrom d = .ok e) (hd : Ast1.AllChunks P1 d) :
    AllChunks P2 e :=
  conv_induction (P := fun d e => Ast1.AllChunks P1 d → AllChunks P2 e) (fun _ _ h hd => carry_shape hc h hd) h hd

/-- Node properties of a parsed stage-1 document. -/
theorem nodes_parsed1 {P1 : Ast1.ChunkVariant → Prop} {s d} (h : Ast1.fromStr s = .ok d)
    (hp : ∀ l v, Ast1.NodeShape (.mk l v) → P1 v) : Ast1.AllChunks P1 d := by
  refine (Ast1.allChunks_iff d).2 ?_
  intro v hw
  obtain ⟨lv, l, hl, hm⟩ := Ast1.within_level hw
  obtain ⟨a, ha⟩ := Ast1.level_parsed h hl
  obtain ⟨pre, post, hpp⟩ := List.append_of_mem hm
  exact hp l v ((Ast1.goodR_iff.1 (Ast1.fromStr_good ha)) pre _ post hpp).2.1

theorem bareDelims_parsed {s e} (h : fromStr s = .ok e) : AllChunks Ast3.BareDelims e := by
  unfold fromStr at h
  cases hd : Ast1.fromStr s with
  | error f => rw [hd] at h; cases h
  | ok d =>
    rw [hd] at h
    refine carry_tryFrom (P1 := fun v => ∀ label args, v = .command (.mk label args) → Ast3.IsMathsLabel label → args = [])
      ⟨?_, ?_, ?_, ?_⟩ h (nodes_parsed1 hd ?_)
    · intro t _ _ _ h; simp at h
    · intro _ _ _ _ _ _ h; simp at h
    · intro label args args' _ _ h1 h2 label' args'' h3 h4
      simp at h3
      obtain ⟨rfl, rfl⟩ := h3
      have := h1 label args rfl h4
      subst this
      simpa using h2
    · intro _ _ _ _ _ _ _ _ _ _ _ h; simp at h
    · rintro l v hn label args rfl hl
      rcases hn with ⟨⟨c, r, rfl, ha, _⟩, _⟩ | ⟨c, rfl, _, h⟩
      · rw [Ast3.isMathsLabel_iff'] at hl
        simp [Ast3.IsDelimiter] at hl
        rcases hl with ⟨rfl, _⟩ | ⟨rfl, _⟩ | ⟨rfl, _⟩ | ⟨rfl, _⟩ <;> (exfalso; revert ha; decide)
      · exact h

end LatexAst.Ast2

namespace LatexAst.Ast3
open Spec

/-! ### Nodes of whole documents -/

theorem nodes_fromChunks {K P2 P3 cs out} (hc : Carries K P2 P3) (hcs : Ast2.AllChunks P2 cs)
    (h : mathsFromChunks cs = .ok out) : AllChunks P3 out := by
  have := post_fromChunks (cs := cs) (E := fun _ => True) fun n => (mathsNodes hc n cs hcs).mono (fun _ h => h) (fun _ _ => .inr trivial)
  rw [h] at this
  exact this.1

theorem nodes_args {K P2 P3 args r} (hc : Carries K P2 P3) (ha : Ast2.AllArgs P2 args)
    (h : tryArgs mathsFromChunks args = .ok r) : AllArgs P3 r := by
  have : Post (tryArgs mathsFromChunks args) (fun r => AllArgs P3 r) (fun _ => True) := by
    refine post_args (Q := fun _ r => AllArgs P3 r) trivial ?_
    intro p inner sv r hm
    have hi : Ast2.AllChunks P2 inner := (Ast2.allArgs_iff_forall _).1 ha _ hm
    cases hr : mathsFromChunks inner with
    | error f => trivial
    | ok out =>
      intro r' hr'
      refine ⟨?_, hr'⟩
      rw [Scope.All, mathsFromChunks_split hr]
      exact nodes_fromChunks hc hi hr
  rw [h] at this
  exact this

theorem tryEnvironment_ok {label args content pb pe x} (h : tryEnvironment mathsFromChunks (.mk label args content pb pe) = .ok x) :
    ∃ args' content', tryArgs mathsFromChunks args = .ok args' ∧ mathsFromChunks content = .ok content' ∧
      x = .mk label args' content' pb pe := by
  simp only [tryEnvironment] at h
  cases h1 : tryArgs mathsFromChunks args with
  | error f => rw [h1] at h; cases h
  | ok args' =>
    rw [h1] at h
    cases h2 : mathsFromChunks content with
    | error f => rw [h2] at h; cases h
    | ok content' =>
      rw [h2] at h
      injection h with h
      exact ⟨args', content', rfl, rfl, by rw [← h, mathsFromChunks_split h2]⟩

theorem nodes_run {K P2 P3} (hc : Carries K P2 P3) {cs : List Ast2.Chunk} (hcs : Ast2.AllChunks P2 cs) :
    ∀ {s s' : DState}, runDocument cs s = .ok s' →
      AllChunks P3 s.construct.body ∧ AllArgs P3 s.construct.bodyArgs ∧ Ast2.AllChunks P2 s.preamable ∧ Ast2.AllChunks P2 s.trailing →
      AllChunks P3 s'.construct.body ∧ AllArgs P3 s'.construct.bodyArgs ∧ Ast2.AllChunks P2 s'.preamable ∧ Ast2.AllChunks P2 s'.trailing := by
  induction cs with
  | nil => intro s s' h hs; simp [runDocument] at h; subst h; exact hs
  | cons c cs ih =>
    intro s s' h hs
    obtain ⟨l, v⟩ := c
    have hv : v.All P2 := hcs.1
    simp only [runDocument] at h
    cases hr : stepDocument s (.mk l v) with
    | error f => rw [hr] at h; cases h
    | ok s1 =>
      rw [hr] at h
      refine ih hcs.2 h ?_
      obtain ⟨h1, h2, h3, h4⟩ := hs
      have push : ∀ d : Document, d.body = s.construct.body → d.bodyArgs = s.construct.bodyArgs →
          s1 = DState.push { s with construct := d } l v →
          AllChunks P3 s1.construct.body ∧ AllArgs P3 s1.construct.bodyArgs ∧ Ast2.AllChunks P2 s1.preamable ∧ Ast2.AllChunks P2 s1.trailing := by
        rintro d hd1 hd2 rfl
        unfold DState.push
        split
        · simp only [hd1, hd2]
          exact ⟨h1, h2, by rw [Ast2.allChunks_append]; exact ⟨h3, hv, trivial⟩, h4⟩
        · simp only [hd1, hd2]
          exact ⟨h1, h2, h3, by rw [Ast2.allChunks_append]; exact ⟨h4, hv, trivial⟩⟩
      have pushes := push s.construct rfl rfl
      cases v with
      | text t => simp only [stepDocument] at hr; injection hr with hr; exact pushes hr.symm
      | scope sc => simp only [stepDocument] at hr; injection hr with hr; exact pushes hr.symm
      | environment env =>
        obtain ⟨label, args, content, pb, pe⟩ := env
        simp only [stepDocument] at hr
        split at hr
        · cases ht : tryEnvironment mathsFromChunks (.mk label args content pb pe) with
          | error f => rw [ht] at hr; cases hr
          | ok x =>
            obtain ⟨args', content', ha, hcn, rfl⟩ := tryEnvironment_ok ht
            rw [ht] at hr
            injection hr with hr
            subst hr
            exact ⟨nodes_fromChunks hc hv.2.2 hcn, nodes_args hc hv.2.1 ha, h3, h4⟩
        · injection hr with hr; exact pushes hr.symm
      | command cmd =>
        obtain ⟨label, args⟩ := cmd
        simp only [stepDocument] at hr
        split at hr
        · split at hr
          · cases hr
          · cases hd : docClassArgs l args s.construct with
            | error f => simp only [Ast2.Command.arguments, hd] at hr; cases hr
            | ok d =>
              simp only [Ast2.Command.arguments, hd] at hr
              injection hr with hr
              refine push d ?_ ?_ hr.symm
              · by_cases hx : (s.construct.documentclass.toList ++ classNames args).length ≤ 1
                · rw [docClassArgs_ok hx] at hd; injection hd with hd; subst hd; rfl
                · rw [docClassArgs_error hx] at hd; cases hd
              · by_cases hx : (s.construct.documentclass.toList ++ classNames args).length ≤ 1
                · rw [docClassArgs_ok hx] at hd; injection hd with hd; subst hd; rfl
                · rw [docClassArgs_error hx] at hd; cases hd
        · injection hr with hr; exact pushes hr.symm

/-- All nodes of the result. -/
theorem nodes_tryFrom {K P2 P3 e f} (hc : Carries K P2 P3) (he : Ast2.AllChunks P2 e) (h : tryFrom e = .ok f) :
    AllChunks P3 f.preamable ∧ AllChunks P3 f.body ∧ AllArgs P3 f.bodyArgs ∧ AllChunks P3 f.trailing := by
  unfold tryFrom at h
  cases hr : runDocument e DState.init with
  | error x => rw [hr] at h; cases h
  | ok s =>
    rw [hr] at h
    obtain ⟨h1, h2, h3, h4⟩ := nodes_run hc he hr ⟨trivial, trivial, trivial, trivial⟩
    simp only at h
    cases h5 : mathsFromChunks s.preamable with
    | error x => rw [h5] at h; cases h
    | ok pre =>
      cases h6 : mathsFromChunks s.trailing with
      | error x => rw [h5, h6] at h; cases h
      | ok tr =>
        rw [h5, h6] at h
        injection h with h
        subst h
        refine ⟨?_, h1, h2, ?_⟩
        · rw [mathsFromChunks_split h5]; exact nodes_fromChunks hc h3 h5
        · rw [mathsFromChunks_split h6]; exact nodes_fromChunks hc h4 h6

/-! ### Accepted documents -/

theorem spec_trivial : FailSpec (fun _ => True) (fun _ => True) :=
  ⟨fun _ _ _ _ => trivial, fun _ _ _ _ => trivial, .inr ⟨trivial, trivial, fun _ _ => trivial, fun _ _ _ _ _ => trivial⟩⟩

theorem everywhere_trivial (cs) : Ast2.Everywhere (fun _ => True) cs := fun _ _ _ _ => trivial

theorem tryFrom_classesOk {e f} (h : tryFrom e = .ok f) : ClassesOk (preambleOf e) := by
  rcases fail_tryFrom spec_trivial (everywhere_trivial e) with ⟨x, hx, _⟩ | ⟨h1, _⟩
  · rw [h] at hx; cases hx
  · exact h1

/-- The sections of an accepted document without document environment. -/
theorem sections_no_body {e f} (h : tryFrom e = .ok f) (hb : ∀ c ∈ e, isBody c = false) :
    ∃ pre, mathsFromChunks e = .ok pre ∧ f = { classDocument e with preamable := pre } := by
  have hok := tryFrom_classesOk h
  rw [preambleOf_no_body hb] at hok
  rw [tryFrom_no_body hb hok] at h
  cases hr : mathsFromChunks e with
  | error x => rw [hr] at h; cases h
  | ok pre => rw [hr] at h; injection h with h; exact ⟨pre, rfl, h.symm⟩

/-- The sections of an accepted document with one document environment. -/
theorem sections_body {pre post l args content pb pe f}
    (h : tryFrom (pre ++ .mk l (.environment (.mk chars!"document" args content pb pe)) :: post) = .ok f)
    (hb : ∀ c ∈ pre, isBody c = false) (hb' : ∀ c ∈ post, isBody c = false) :
    ∃ pre' args' content' post', mathsFromChunks pre = .ok pre' ∧ tryArgs mathsFromChunks args = .ok args' ∧
      mathsFromChunks content = .ok content' ∧ mathsFromChunks post = .ok post' ∧
      f = { classDocument pre with
        preamable := pre', body := content', bodyArgs := args', bodyBeginPrec := pb, bodyEndPrec := pe, trailing := post' } := by
  have hok := tryFrom_classesOk h
  rw [preambleOf_body hb] at hok
  rw [tryFrom_body hb hb' hok] at h
  cases h1 : tryArgs mathsFromChunks args with
  | error x => rw [h1] at h; cases h
  | ok args' =>
    rw [h1] at h
    cases h2 : mathsFromChunks content with
    | error x => rw [h2] at h; cases h
    | ok content' =>
      rw [h2] at h
      cases h3 : mathsFromChunks pre with
      | error x => rw [h3] at h; cases h
      | ok pre' =>
        rw [h3] at h
        cases h4 : mathsFromChunks post with
        | error x => rw [h4] at h; cases h
        | ok post' =>
          rw [h4] at h
          injection h with h
          exact ⟨pre', args', content', post', rfl, rfl, rfl, rfl, h.symm⟩

theorem displayArgs_rel3 {args args'} (h : tryArgs mathsFromChunks args = .ok args') {F : Str → Str → Prop}
    (hnil : F [] []) (hcons : ∀ p (sv : ScopeVariant) a b r r', F a b → F r r' → F (p ++ (sv.opening :: (a ++ [sv.closing]) ++ r)) (p ++ (sv.opening :: (b ++ [sv.closing]) ++ r')))
    (hin : ∀ p inner sv out, (p, Ast2.Scope.mk inner sv) ∈ args → mathsFromChunks inner = .ok out →
      F (displayChunks out) (Ast2.displayChunks inner)) :
    F (displayArgs args') (Ast2.displayArgs args) := by
  have : Post (tryArgs mathsFromChunks args) (fun r => F (displayArgs r) (Ast2.displayArgs args)) (fun _ => True) := by
    refine post_args (Q := fun a r => F (displayArgs r) (Ast2.displayArgs a)) hnil ?_
    intro p inner sv r hm
    cases hr : mathsFromChunks inner with
    | error f => trivial
    | ok out =>
      intro r' hr'
      have := hcons p sv _ _ _ _ (hin p inner sv out hm hr) hr'
      simpa [displayArgs, Ast2.displayArgs, Scope.display, Ast2.Scope.display, mathsFromChunks_split hr] using this
  rw [h] at this
  exact this

theorem display_document (d : Document) : d.display = displayChunks d.preamable ++ (chars!"\\begin" ++ d.bodyBeginPrec ++ chars!"{document}" ++
    displayArgs d.bodyArgs ++ displayChunks d.body ++ chars!"\\end" ++ d.bodyBeginPrec ++ chars!"{document}") ++ displayChunks d.trailing := by
  unfold Document.display
  simp only [displayChunks_append]
  simp [displayChunks, Chunk.display, ChunkVariant.display, Command.display, displayArgs, documentScope, Scope.display,
    ScopeVariant.opening, ScopeVariant.closing]

theorem display_body2 (l args content pb pe) : (Ast2.Chunk.mk l (.environment (.mk chars!"document" args content pb pe))).display =
    chars!"\\begin" ++ pb ++ chars!"{document}" ++ Ast2.displayArgs args ++ Ast2.displayChunks content ++ chars!"\\end" ++ pe ++ chars!"{document}" := by
  simp [Ast2.Chunk.display, Ast2.ChunkVariant.display, Ast2.Environment.display]

end LatexAst.Ast3
