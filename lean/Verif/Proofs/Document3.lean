import Verif.Proofs.MathsText
import Verif.Spec.Document

/-!
# Stage 2 → stage 3: sections and document class
-/

namespace LatexAst.Ast3
open Spec

/-- The options of one argument. -/
def readOptions (s : Str) : List DocOption := (splitComma s).map parseOption

theorem classNames_append (a b) : classNames (a ++ b) = classNames a ++ classNames b := by
  induction a with
  | nil => rfl
  | cons x a ih =>
    obtain ⟨p, cs, sv⟩ := x
    cases sv <;> simp [classNames, ih]

theorem optionLists_append (a b) : optionLists (a ++ b) = optionLists a ++ optionLists b := by
  induction a with
  | nil => rfl
  | cons x a ih =>
    obtain ⟨p, cs, sv⟩ := x
    cases sv <;> simp [optionLists, ih]

theorem classArgs_append (a b) : classArgs (a ++ b) = classArgs a ++ classArgs b := by
  induction a with
  | nil => rfl
  | cons x a ih =>
    obtain ⟨l, v⟩ := x
    cases v with
    | command c =>
      obtain ⟨label, args⟩ := c
      simp only [List.cons_append, classArgs]
      split <;> simp [ih]
    | _ => simp [classArgs, ih]

theorem docClassArgs_ok {line args} {d : Document} (h : (d.documentclass.toList ++ classNames args).length ≤ 1) :
    docClassArgs line args d = .ok { d with
      documentclass := (d.documentclass.toList ++ classNames args).head?
      documentoptions := d.documentoptions ++ (optionLists args).flatMap readOptions } := by
  induction args generalizing d with
  | nil => simp [docClassArgs, classNames, optionLists]
  | cons x r ih =>
    obtain ⟨p, cs, sv⟩ := x
    cases sv with
    | curly =>
      simp only [classNames] at h ⊢
      have hn : d.documentclass = none := by
        cases hd : d.documentclass with
        | none => rfl
        | some x => rw [hd] at h; simp at h
      simp only [docClassArgs, hn]
      rw [ih (by rw [hn] at h; simpa using h)]
      simp [optionLists]
    | round =>
      simp only [classNames] at h ⊢
      simp only [docClassArgs]
      rw [ih (by simpa using h)]
      simp [optionLists, readOptions]
    | square =>
      simp only [classNames] at h ⊢
      simp only [docClassArgs]
      rw [ih (by simpa using h)]
      simp [optionLists, readOptions]

theorem docClassArgs_error {line args} {d : Document} (h : ¬ (d.documentclass.toList ++ classNames args).length ≤ 1) :
    docClassArgs line args d = fail line .tooManyArgsDocumentClass := by
  induction args generalizing d with
  | nil => cases hd : d.documentclass <;> simp [hd, classNames] at h
  | cons x r ih =>
    obtain ⟨p, cs, sv⟩ := x
    cases sv with
    | curly =>
      simp only [classNames] at h
      simp only [docClassArgs]
      cases hd : d.documentclass with
      | some x => simp
      | none =>
        simp only [Option.isSome_none, Bool.false_eq_true, if_false]
        exact ih (by rw [hd] at h; simpa using h)
    | round => exact ih h
    | square => exact ih h

theorem runDocument_append (a b : List Ast2.Chunk) (s : DState) : runDocument (a ++ b) s =
    (match runDocument a s with | .error f => .error f | .ok s => runDocument b s) := by
  induction a generalizing s with
  | nil => rfl
  | cons c a ih =>
    simp only [List.cons_append, runDocument]
    cases stepDocument s c with
    | error f => rfl
    | ok s => exact ih s

/-- The state after the preamble `cs`. -/
def DState.read (s : DState) (cs : List Ast2.Chunk) : DState :=
  { s with
    construct := { s.construct with
      documentclass := (s.construct.documentclass.toList ++ classNames (classArgs cs)).head?
      documentoptions := s.construct.documentoptions ++ (optionLists (classArgs cs)).flatMap readOptions }
    preamable := s.preamable ++ cs }

theorem DState.read_nil (s : DState) : s.read [] = s := by
  obtain ⟨⟨c, o, a1, a2, a3, a4, a5, a6⟩, p, t, b⟩ := s
  cases c <;> simp [DState.read, classArgs, classNames, optionLists]

open Classical in
/-- One chunk of the preamble. -/
theorem step_preamble {s : DState} {l v} (hp : s.inPreamable = true) (hb : isBody (.mk l v) = false) :
    stepDocument s (.mk l v) =
      if ∃ args, v = .command (.mk chars!"documentclass" args) then
        if s.construct.documentclass.isSome then fail l .doubleDocumentClass
        else if 2 ≤ (classNames (classArgs [.mk l v])).length then fail l .tooManyArgsDocumentClass
        else .ok (s.read [.mk l v])
      else .ok (s.read [.mk l v]) := by
  have other : classArgs [.mk l v] = [] → s.push l v = s.read [.mk l v] := by
    intro h
    obtain ⟨⟨c, o, a1, a2, a3, a4, a5, a6⟩, p, t, b⟩ := s
    simp only at hp; subst hp
    simp only [DState.push, DState.read, h]
    cases c <;> simp [classNames, optionLists]
  cases v with
  | command cmd =>
    obtain ⟨label, args⟩ := cmd
    by_cases hl : label = chars!"documentclass"
    · subst hl
      have hc : classArgs [.mk l (.command (.mk chars!"documentclass" args))] = args := by simp [classArgs]
      simp only [hc]
      rw [if_pos ⟨args, rfl⟩]
      simp only [stepDocument, Ast2.Command.label, Ast2.Command.arguments, hp, and_self, if_true]
      cases hd : s.construct.documentclass with
      | some x => rfl
      | none =>
        simp only [Option.isSome_none, Bool.false_eq_true, if_false]
        by_cases h : (classNames args).length ≤ 1
        · rw [docClassArgs_ok (by simpa [hd] using h), if_neg (by omega)]
          simp [DState.push, DState.read, hp, hc, hd]
        · rw [docClassArgs_error (by simpa [hd] using h), if_pos (by omega)]
          rfl
    · have hc : classArgs [.mk l (.command (.mk label args))] = [] := by simp [classArgs, hl]
      rw [if_neg (by simpa using hl)]
      simp only [stepDocument, Ast2.Command.label, hl, false_and, if_false]
      rw [other hc]
  | environment e =>
    obtain ⟨label, args, content, pb, pe⟩ := e
    simp [isBody] at hb
    rw [if_neg (by simp)]
    simp only [stepDocument, Ast2.Environment.label, hb, if_false]
    rw [other rfl]
  | text t => rw [if_neg (by simp)]; simp only [stepDocument]; rw [other rfl]
  | scope sc => rw [if_neg (by simp)]; simp only [stepDocument]; rw [other rfl]

theorem DState.read_read (s : DState) (a b : List Ast2.Chunk)
    (h : (s.construct.documentclass.toList ++ classNames (classArgs a)).length ≤ 1) : (s.read a).read b = s.read (a ++ b) := by
  have hh : ∀ l : List Str, l.length ≤ 1 → l.head?.toList = l := by
    intro l h
    match l, h with
    | [], _ => rfl
    | [x], _ => rfl
  simp only [DState.read, hh _ h, classArgs_append, classNames_append, optionLists_append]
  simp

/-- The preamble is accepted. -/
theorem run_preamble {cs : List Ast2.Chunk} {s : DState} (hp : s.inPreamable = true) (hb : ∀ c ∈ cs, isBody c = false)
    (hs : s.construct.documentclass = none) (h : ClassesOk cs) :
    runDocument cs s = .ok (s.read cs) ∧ (classNames (classArgs cs)).length ≤ 1 := by
  suffices key : ∀ post pre, cs = pre ++ post → (classNames (classArgs pre)).length ≤ 1 →
      runDocument post (s.read pre) = .ok (s.read cs) ∧ (classNames (classArgs cs)).length ≤ 1 by
    have := key cs [] rfl (by simp [classArgs, classNames])
    rw [DState.read_nil] at this
    exact this
  intro post
  induction post with
  | nil => intro pre he h1; simp at he; subst he; exact ⟨rfl, h1⟩
  | cons c post ih =>
    intro pre he h1
    obtain ⟨l, v⟩ := c
    have hstep := step_preamble (s := s.read pre) (l := l) (v := v) hp (hb _ (by simp [he]))
    have hread := s.read_read pre [.mk l v] (by simpa [hs] using h1)
    have hlen : (classNames (classArgs (pre ++ [.mk l v]))).length ≤ 1 ∧
        stepDocument (s.read pre) (.mk l v) = .ok (s.read (pre ++ [.mk l v])) := by
      rw [hstep, ← hread]
      rw [classArgs_append, classNames_append]
      by_cases hv : ∃ args, v = .command (.mk chars!"documentclass" args)
      · obtain ⟨args, rfl⟩ := hv
        obtain ⟨h2, h3⟩ := h pre l args post he
        have hc : classArgs [.mk l (.command (.mk chars!"documentclass" args))] = args := by simp [classArgs]
        rw [hc, h2]
        refine ⟨by simpa using h3, ?_⟩
        rw [if_pos ⟨args, rfl⟩]
        have hno : ¬ (s.read pre).construct.documentclass.isSome = true := by simp [DState.read, hs, h2]
        rw [if_neg hno, if_neg (by omega)]
      · have hc : classArgs [.mk l v] = [] := by
          cases v with
          | command c =>
            obtain ⟨label, args⟩ := c
            have : label ≠ chars!"documentclass" := by rintro rfl; exact hv ⟨args, rfl⟩
            simp [classArgs, this]
          | _ => rfl
        rw [hc, if_neg hv]
        exact ⟨by simpa [classNames] using h1, rfl⟩
    simp only [runDocument, hlen.2]
    exact ih (pre ++ [.mk l v]) (by simp [he]) hlen.1

/-- Otherwise there is a first command that is wrong. -/
theorem classes_total (cs : List Ast2.Chunk) : ClassesOk cs ∨
    ∃ a l args b, cs = a ++ .mk l (.command (.mk chars!"documentclass" args)) :: b ∧ ClassesOk a ∧
      (classNames (classArgs a) ≠ [] ∨ classNames (classArgs a) = [] ∧ 2 ≤ (classNames args).length) := by
  suffices key : ∀ post pre, cs = pre ++ post → ClassesOk pre → ClassesOk cs ∨
      ∃ a l args b, cs = a ++ .mk l (.command (.mk chars!"documentclass" args)) :: b ∧ ClassesOk a ∧
        (classNames (classArgs a) ≠ [] ∨ classNames (classArgs a) = [] ∧ 2 ≤ (classNames args).length) from
    key cs [] rfl (by intro a l args b h; simp at h)
  intro post
  induction post with
  | nil => intro pre he h; simp at he; subst he; exact .inl h
  | cons c post ih =>
    intro pre he h
    by_cases hbad : ∃ l args, c = .mk l (.command (.mk chars!"documentclass" args)) ∧
        (classNames (classArgs pre) ≠ [] ∨ classNames (classArgs pre) = [] ∧ 2 ≤ (classNames args).length)
    · obtain ⟨l, args, rfl, hbad⟩ := hbad
      exact .inr ⟨pre, l, args, post, he, h, hbad⟩
    · refine ih (pre ++ [c]) (by simp [he]) ?_
      intro a l args b hab
      rcases List.eq_nil_or_concat b with rfl | ⟨b', y, rfl⟩
      · have h1 := List.append_inj' hab rfl
        obtain ⟨rfl, h2⟩ := h1
        simp at h2
        subst h2
        by_cases hn : classNames (classArgs pre) = []
        · refine ⟨hn, ?_⟩
          by_cases h3 : 2 ≤ (classNames args).length
          · exact absurd ⟨l, args, rfl, .inr ⟨hn, h3⟩⟩ hbad
          · omega
        · exact absurd ⟨l, args, rfl, .inl hn⟩ hbad
      · have h1 : pre = a ++ .mk l (.command (.mk chars!"documentclass" args)) :: b' := by
          have : pre ++ [c] = (a ++ .mk l (.command (.mk chars!"documentclass" args)) :: b') ++ [y] := by
            simpa using hab
          exact (List.append_inj' this rfl).1
        exact h a l args b' h1

/-- The error of the preamble. -/
theorem run_preamble_error {a : List Ast2.Chunk} {l args b} {s : DState} (hp : s.inPreamable = true)
    (hb : ∀ c ∈ a, isBody c = false) (hs : s.construct.documentclass = none) (ha : ClassesOk a) :
    (classNames (classArgs a) ≠ [] →
      runDocument (a ++ .mk l (.command (.mk chars!"documentclass" args)) :: b) s = fail l .doubleDocumentClass) ∧
    (classNames (classArgs a) = [] → 2 ≤ (classNames args).length →
      runDocument (a ++ .mk l (.command (.mk chars!"documentclass" args)) :: b) s = fail l .tooManyArgsDocumentClass) := by
  obtain ⟨h1, h2⟩ := run_preamble hp hb hs ha
  have hstep := step_preamble (s := s.read a) (l := l) (v := .command (.mk chars!"documentclass" args)) hp rfl
  have hc : classArgs [.mk l (.command (.mk chars!"documentclass" args))] = args := by simp [classArgs]
  rw [if_pos ⟨args, rfl⟩, hc] at hstep
  constructor
  · intro hn
    have : (s.read a).construct.documentclass.isSome = true := by
      simp only [DState.read, hs]
      cases hx : classNames (classArgs a) with
      | nil => exact absurd hx hn
      | cons => rfl
    rw [if_pos this] at hstep
    rw [runDocument_append, h1]
    simp only [runDocument, hstep]
    rfl
  · intro hn h3
    have : ¬ (s.read a).construct.documentclass.isSome = true := by simp [DState.read, hs, hn]
    rw [if_neg this, if_pos h3] at hstep
    rw [runDocument_append, h1]
    simp only [runDocument, hstep]
    rfl

/-- What follows the document environment. -/
theorem run_trailing {cs : List Ast2.Chunk} {s : DState} (hp : s.inPreamable = false) (hb : ∀ c ∈ cs, isBody c = false) :
    runDocument cs s = .ok { s with trailing := s.trailing ++ cs } := by
  induction cs generalizing s with
  | nil => simp [runDocument]
  | cons c cs ih =>
    obtain ⟨l, v⟩ := c
    have hstep : stepDocument s (.mk l v) = .ok { s with trailing := s.trailing ++ [.mk l v] } := by
      have h0 := hb (.mk l v) (.head _)
      cases v with
      | command cmd => simp [stepDocument, hp, DState.push]
      | environment e =>
        obtain ⟨label, args, content, pb, pe⟩ := e
        simp [isBody] at h0
        simp [stepDocument, hp, DState.push, Ast2.Environment.label, h0]
      | text t => simp [stepDocument, hp, DState.push]
      | scope sc => simp [stepDocument, hp, DState.push]
    simp only [runDocument, hstep]
    rw [ih (by simpa using hp) (fun c hc => hb c (by simp [hc]))]
    simp

/-- After the first document environment: the last one counts. -/
theorem run_after {cs : List Ast2.Chunk} {s s' : DState} (hp : s.inPreamable = false) (h : runDocument cs s = .ok s') :
    s'.inPreamable = false ∧ s'.preamable = s.preamable ∧ s'.trailing = s.trailing ++ cs.filter (fun c => !isBody c) ∧
    s'.construct.documentclass = s.construct.documentclass ∧ s'.construct.documentoptions = s.construct.documentoptions ∧
    ((∀ c ∈ cs, isBody c = false) → s'.construct = s.construct) := by
  induction cs generalizing s with
  | nil => simp [runDocument] at h; subst h; simp [hp]
  | cons c cs ih =>
    obtain ⟨l, v⟩ := c
    simp only [runDocument] at h
    cases hr : stepDocument s (.mk l v) with
    | error f => rw [hr] at h; cases h
    | ok s1 =>
      rw [hr] at h
      have hpush : isBody (.mk l v) = false → s1 = { s with trailing := s.trailing ++ [.mk l v] } := by
        intro h0
        have := run_trailing (cs := [.mk l v]) hp (by simpa using h0)
        simp only [runDocument, hr] at this
        exact Except.ok.inj this
      by_cases hbody : isBody (.mk l v) = true
      · cases v with
        | environment e =>
          obtain ⟨label, args, content, pb, pe⟩ := e
          simp [isBody] at hbody
          simp only [stepDocument, Ast2.Environment.label, hbody, if_true] at hr
          cases ht : tryEnvironment mathsFromChunks (.mk chars!"document" args content pb pe) with
          | error f => rw [ht] at hr; cases hr
          | ok e =>
            obtain ⟨label', args', content', pb', pe'⟩ := e
            rw [ht] at hr
            injection hr with hr
            subst hr
            obtain ⟨h1, h2, h3, h4, h5, h6⟩ := ih rfl h
            refine ⟨h1, h2, ?_, h4, h5, ?_⟩
            · rw [h3]; simp [isBody, hbody]
            · intro hall
              have := hall _ (.head _)
              simp [isBody, hbody] at this
        | command => simp [isBody] at hbody
        | text => simp [isBody] at hbody
        | scope => simp [isBody] at hbody
      · have := hpush (by simpa using hbody)
        subst this
        obtain ⟨h1, h2, h3, h4, h5, h6⟩ := ih (by simpa using hp) h
        refine ⟨h1, h2, ?_, h4, h5, ?_⟩
        · rw [h3]; simp [hbody]
        · intro hall; exact h6 fun c hc => hall c (.tail _ hc)

/-! ### tryFrom -/

theorem mathsFromChunks_split {cs out} (h : mathsFromChunks cs = .ok out) : paragraphs out = out := by
  have := post_fromChunks (cs := cs) (E := fun _ => True) fun n => (mathsFuel_split n cs).mono (fun _ h => h) (fun _ _ => .inr trivial)
  rw [h] at this
  exact this

theorem mathsFromChunks_nil : mathsFromChunks [] = .ok [] := by rfl

/-- A preamble that names too many classes. -/
theorem tryFrom_class_error {a : List Ast2.Chunk} {l args b rest} (hb : ∀ c ∈ a, isBody c = false) (ha : ClassesOk a) :
    (classNames (classArgs a) ≠ [] →
      tryFrom (a ++ .mk l (.command (.mk chars!"documentclass" args)) :: b ++ rest) = fail l .doubleDocumentClass) ∧
    (classNames (classArgs a) = [] → 2 ≤ (classNames args).length →
      tryFrom (a ++ .mk l (.command (.mk chars!"documentclass" args)) :: b ++ rest) = fail l .tooManyArgsDocumentClass) := by
  have := run_preamble_error (l := l) (args := args) (b := b ++ rest) (s := DState.init) rfl hb rfl ha
  constructor
  · intro h
    simp only [List.append_assoc, List.cons_append] at *
    rw [tryFrom, this.1 h]; rfl
  · intro h h'
    simp only [List.append_assoc, List.cons_append] at *
    rw [tryFrom, this.2 h h']; rfl

/-- What has been read of a preamble. -/
def classDocument (pre : List Ast2.Chunk) : Document :=
  { Document.default with
    documentclass := (classNames (classArgs pre)).head?
    documentoptions := (optionLists (classArgs pre)).flatMap readOptions }

theorem init_read (pre) : DState.init.read pre = ⟨classDocument pre, pre, [], true⟩ := by
  simp [DState.read, DState.init, classDocument, Document.default]

/-- Without document environment. -/
theorem tryFrom_no_body {e : List Ast2.Chunk} (hb : ∀ c ∈ e, isBody c = false) (h : ClassesOk e) :
    tryFrom e = (match mathsFromChunks e with
      | .error f => .error f
      | .ok pre => .ok { classDocument e with preamable := pre }) := by
  rw [tryFrom, (run_preamble (s := DState.init) rfl hb rfl h).1, init_read]
  simp only [mathsFromChunks_nil]
  cases hr : mathsFromChunks e with
  | error f => rfl
  | ok pre => simp only [mathsFromChunks_split hr]; rfl

/-- With one document environment. -/
theorem tryFrom_body {pre post : List Ast2.Chunk} {l args content pb pe} (hb : ∀ c ∈ pre, isBody c = false)
    (hb' : ∀ c ∈ post, isBody c = false) (h : ClassesOk pre) :
    tryFrom (pre ++ .mk l (.environment (.mk chars!"document" args content pb pe)) :: post) =
      (match tryArgs mathsFromChunks args with
      | .error f => .error f
      | .ok args' =>
        match mathsFromChunks content with
        | .error f => .error f
        | .ok content' =>
          match mathsFromChunks pre with
          | .error f => .error f
          | .ok pre' =>
            match mathsFromChunks post with
            | .error f => .error f
            | .ok post' => .ok { classDocument pre with
                preamable := pre', body := content', bodyArgs := args', bodyBeginPrec := pb, bodyEndPrec := pe, trailing := post' }) := by
  rw [tryFrom, runDocument_append, (run_preamble (s := DState.init) rfl hb rfl h).1, init_read]
  simp only [runDocument, stepDocument, Ast2.Environment.label, if_true, tryEnvironment]
  cases h1 : tryArgs mathsFromChunks args with
  | error f => rfl
  | ok args' =>
    cases h2 : mathsFromChunks content with
    | error f => rfl
    | ok content' =>
      simp only
      rw [run_trailing rfl hb']
      simp only [List.nil_append]
      cases h3 : mathsFromChunks pre with
      | error f => rfl
      | ok pre' =>
        cases h4 : mathsFromChunks post with
        | error f => rfl
        | ok post' => simp only [mathsFromChunks_split h2, mathsFromChunks_split h3, mathsFromChunks_split h4]

end LatexAst.Ast3
