import Verif.Spec.DocumentRule
import Verif.Proofs.MathsRule
import Verif.Proofs.Document3Facts
import Verif.Proofs.Options3

/-!
# The rule of `Spec/DocumentRule.lean` describes the code
-/

namespace LatexAst.Ast3
open Spec

/-! ### options -/

theorem darkEnd_tail {x y : Str} (h : DarkEnd y) (hy : y ≠ []) : DarkEnd (x ++ y) := by
  intro a c he
  rcases List.eq_nil_or_concat y with rfl | ⟨y', d, rfl⟩
  · exact absurd rfl hy
  · rw [List.concat_eq_append, ← List.append_assoc] at he
    have := (List.append_inj_right' he (by simp))
    simp at this
    subst this
    exact h y' d (by simp)

theorem darkEnd_of_tail {x y : Str} (h : DarkEnd (x ++ y)) : DarkEnd y := by
  intro a c he
  exact h (x ++ a) c (by simp [he])

theorem readsOption_sound {s o} (h : ReadsOption s o) : parseOption s = o := by
  cases h with
  | blank hw => exact parseOption_blank hw
  | key hw hc hb ha he => exact (parseOption_dark hw hc hb ha).1 he
  | @value w c k e v b hw hc hb hv hn he hk =>
    exact (parseOption_dark hw hc hb (darkEnd_tail hv (by simp))).2 k e v rfl hn he hk

theorem readsOption_total (s : Str) : ReadsOption s (parseOption s) := by
  suffices h : ∃ o, ReadsOption s o by
    obtain ⟨o, h⟩ := h
    rw [readsOption_sound h]; exact h
  rcases option_cases s with h | ⟨w, c, a, b, rfl, hw, hc, hb, ha⟩
  · exact ⟨_, .blank h⟩
  · by_cases he : '=' ∈ a
    · obtain ⟨k, v, hkv, hk⟩ :=
        (show ∃ k v, a = k ++ '=' :: v ∧ '=' ∉ k from by
          clear ha
          induction a with
          | nil => simp at he
          | cons x a ih =>
            by_cases hx : x = '='
            · exact ⟨[], a, by simp [hx], by simp⟩
            · obtain ⟨k, v, h1, h2⟩ := ih (by simpa [Ne.symm hx] using he)
              exact ⟨x :: k, v, by simp [h1], by simp [h2, Ne.symm hx]⟩)
      have hs := optKey_spec k [] [] (by intro x hx; simp at hx) noTrailing_nil
      obtain ⟨h1, h2, h3⟩ := hs
      generalize (optKey k ([], [])).1 = k' at h1 h3
      generalize (optKey k ([], [])).2 = e' at h1 h2
      simp only [List.nil_append] at h1
      subst hkv
      rw [← h1] at hk ha ⊢
      exact ⟨_, .value hw hc hb (darkEnd_of_tail ha) hk h2 h3⟩
    · exact ⟨_, .key hw hc hb ha he⟩

theorem splitComma_plain : ∀ p : Str, ',' ∉ p → splitComma p = [p] := by
  intro p
  induction p with
  | nil => intro _; rfl
  | cons c p ih =>
    intro h
    simp only [List.mem_cons, not_or] at h
    simp [splitComma, Ne.symm h.1, ih h.2]

theorem splitComma_more : ∀ p r : Str, ',' ∉ p → splitComma (p ++ ',' :: r) = p :: splitComma r := by
  intro p r
  induction p with
  | nil => intro _; simp [splitComma]
  | cons c p ih =>
    intro h
    simp only [List.mem_cons, not_or] at h
    simp [splitComma, Ne.symm h.1, ih h.2]

theorem readsOptions_sound {s os} (h : ReadsOptions s os) : readOptions s = os := by
  induction h with
  | last h1 h2 => simp [readOptions, splitComma_plain _ h1, readsOption_sound h2]
  | more h1 h2 _ ih =>
    unfold readOptions at ih ⊢
    rw [splitComma_more _ _ h1, List.map_cons, ih, readsOption_sound h2]

theorem first_comma (s : Str) : ',' ∉ s ∨ ∃ p r, s = p ++ ',' :: r ∧ ',' ∉ p := by
  induction s with
  | nil => exact .inl (by simp)
  | cons x s ih =>
    by_cases hx : x = ','
    · exact .inr ⟨[], s, by simp [hx], by simp⟩
    · rcases ih with h | ⟨p, r, h1, h2⟩
      · exact .inl (by simp [h, Ne.symm hx])
      · exact .inr ⟨x :: p, r, by simp [h1], by simp [h2, Ne.symm hx]⟩

theorem readsOptions_total : ∀ n (s : Str), s.length ≤ n → ∃ os, ReadsOptions s os
  | n, s, hn => by
    rcases first_comma s with h | ⟨p, r, rfl, h⟩
    · exact ⟨_, .last h (readsOption_total s)⟩
    · match n, hn with
      | 0, hn => simp at hn
      | n + 1, hn =>
        obtain ⟨os, ho⟩ := readsOptions_total n r (by simp at hn; omega)
        exact ⟨_, .more h (readsOption_total p) ho⟩

theorem readsLists_sound {ls os} (h : ReadsLists ls os) : ls.flatMap readOptions = os := by
  induction h with
  | nil => rfl
  | cons h1 _ ih => rw [List.flatMap_cons, ih, readsOptions_sound h1]

theorem readsLists_total (ls : List Str) : ∃ os, ReadsLists ls os := by
  induction ls with
  | nil => exact ⟨_, .nil⟩
  | cons s ls ih =>
    obtain ⟨os, h⟩ := ih
    obtain ⟨o, h1⟩ := readsOptions_total _ s (Nat.le_refl _)
    exact ⟨_, .cons h1 h⟩

/-! ### document environments -/

theorem becomes_iff {cs r} : Becomes cs r ↔ mathsFromChunks cs = r := yields_iff.symm

theorem maths_environment (l : Nat) (env : Ast2.Environment) : mathsFromChunks [.mk l (.environment env)] =
    match tryEnvironment mathsFromChunks env with
    | .error f => .error f
    | .ok env' => .ok [.mk l (.environment env')] := by
  rw [mathsFromChunks_out, mathsOut]
  simp only [runMaths, stepMaths, MState.init, if_true]
  cases tryEnvironment mathsFromChunks env with
  | error f => rfl
  | ok env' => simp [inParagraphs, paragraphs, paragraphChunk]

theorem tryEnvironment_label {rec label args content pb pe x}
    (h : tryEnvironment rec (.mk label args content pb pe) = .ok x) : ∃ args' content', x = .mk label args' content' pb pe := by
  simp only [tryEnvironment] at h
  split at h
  · cases h
  · split at h
    · cases h
    · injection h with h; exact ⟨_, _, h.symm⟩

theorem isBody_cases {c : Ast2.Chunk} (h : isBody c = true) :
    ∃ l args content pb pe, c = .mk l (.environment (.mk chars!"document" args content pb pe)) := by
  obtain ⟨l, v⟩ := c
  cases v with
  | environment env =>
    obtain ⟨label, args, content, pb, pe⟩ := env
    simp [isBody] at h
    subst h
    exact ⟨l, args, content, pb, pe, rfl⟩
  | _ => simp [isBody] at h

/-- The document with another body. -/
def Document.withBody (d : Document) (e : Environment) : Document :=
  match e with
  | .mk _ args content pb pe => { d with bodyArgs := args, body := content, bodyBeginPrec := pb, bodyEndPrec := pe }

theorem step_body {s : DState} {l env} (h : isBody (.mk l (.environment env)) = true) :
    stepDocument s (.mk l (.environment env)) =
      match mathsFromChunks [.mk l (.environment env)] with
      | .error f => .error f
      | .ok _ => match tryEnvironment mathsFromChunks env with
        | .error f => .error f
        | .ok env' => .ok { s with construct := s.construct.withBody env', inPreamable := false } := by
  obtain ⟨label, args, content, pb, pe⟩ := env
  simp [isBody] at h
  subst h
  rw [maths_environment]
  simp only [stepDocument, Ast2.Environment.label, if_true]
  cases hr : tryEnvironment mathsFromChunks (.mk chars!"document" args content pb pe) with
  | error f => rfl
  | ok x =>
    obtain ⟨args', content', rfl⟩ := tryEnvironment_label hr
    rfl

/-- The body after the environments `bs`, from `d`. -/
def LastBody (bs : List Ast2.Chunk) (d d' : Document) : Prop :=
  (bs = [] ∧ d' = d) ∨
  ∃ a l env env', bs = a ++ [.mk l (.environment env)] ∧ tryEnvironment mathsFromChunks env = .ok env' ∧ d' = d.withBody env'

theorem withBody_withBody (d : Document) (e e') : (d.withBody e).withBody e' = d.withBody e' := by
  obtain ⟨_, _, _, _, _⟩ := e
  obtain ⟨_, _, _, _, _⟩ := e'
  rfl

/-- After the first document environment, or at one. -/
theorem run_bodies (cs : List Ast2.Chunk) : ∀ s : DState, (s.inPreamable = false ∨ ∃ c r, cs = c :: r ∧ isBody c = true) →
    ((∀ x ∈ bodiesOf cs, ∃ out, mathsFromChunks [x] = .ok out) →
      ∃ s', runDocument cs s = .ok s' ∧ s'.preamable = s.preamable ∧
        s'.trailing = s.trailing ++ cs.filter (fun c => !isBody c) ∧ LastBody (bodiesOf cs) s.construct s'.construct) ∧
    (∀ a c b f, bodiesOf cs = a ++ c :: b → (∀ x ∈ a, ∃ out, mathsFromChunks [x] = .ok out) →
      mathsFromChunks [c] = .error f → runDocument cs s = .error f) := by
  induction cs with
  | nil =>
    intro s _
    refine ⟨fun _ => ⟨s, rfl, rfl, by simp, .inl ⟨rfl, rfl⟩⟩, ?_⟩
    intro a c b f h
    simp [bodiesOf] at h
  | cons c cs ih =>
    intro s hs
    by_cases hb : isBody c = true
    · obtain ⟨l, args, content, pb, pe, rfl⟩ := isBody_cases hb
      have hbod : bodiesOf (.mk l (.environment (.mk chars!"document" args content pb pe)) :: cs) =
        .mk l (.environment (.mk chars!"document" args content pb pe)) :: bodiesOf cs := by
        simp [bodiesOf, List.filter_cons, isBody]
      have hstep := step_body (s := s) hb
      rw [hbod]
      constructor
      · intro hall
        obtain ⟨out, ho⟩ := hall (.mk l (.environment (.mk chars!"document" args content pb pe))) (List.mem_cons_self ..)
        have ho' := ho
        rw [maths_environment] at ho'
        cases he : tryEnvironment mathsFromChunks (.mk chars!"document" args content pb pe) with
        | error f => rw [he] at ho'; cases ho'
        | ok env' =>
          simp only [ho, he] at hstep
          obtain ⟨s', h1, h2, h3, h4⟩ := (ih { s with construct := s.construct.withBody env', inPreamable := false } (.inl rfl)).1
            (fun x hx => hall x (by simp [hx]))
          refine ⟨s', ?_, h2, ?_, ?_⟩
          · rw [runDocument, hstep]; exact h1
          · rw [h3]; simp [isBody]
          · rcases h4 with ⟨h4, h5⟩ | ⟨a, l', env, env'', h4, h5, h6⟩
            · exact .inr ⟨[], l, _, env', by simp [h4], he, h5⟩
            · refine .inr ⟨_ :: a, l', env, env'', by rw [h4]; simp; rfl, h5, ?_⟩
              rw [h6]; exact withBody_withBody ..
      · intro a c b f hab hall hf
        cases a with
        | nil =>
          simp at hab
          obtain ⟨rfl, rfl⟩ := hab
          rw [hf] at hstep
          simp only [runDocument, hstep]
        | cons x a =>
          simp at hab
          obtain ⟨rfl, hab⟩ := hab
          obtain ⟨out, ho⟩ := hall (.mk l (.environment (.mk chars!"document" args content pb pe))) (List.mem_cons_self ..)
          have ho' := ho
          rw [maths_environment] at ho'
          cases he : tryEnvironment mathsFromChunks (.mk chars!"document" args content pb pe) with
          | error f => rw [he] at ho'; cases ho'
          | ok env' =>
            simp only [ho, he] at hstep
            simp only [runDocument, hstep]
            exact (ih _ (.inl rfl)).2 a c b f hab (fun x hx => hall x (by simp [hx])) hf
    · have hp : s.inPreamable = false := by
        rcases hs with h | ⟨c', r, h, h'⟩
        · exact h
        · cases h; exact absurd h' hb
      have hb' : isBody c = false := by simpa using hb
      have hbod : bodiesOf (c :: cs) = bodiesOf cs := by simp [bodiesOf, hb]
      have hstep : stepDocument s c = .ok { s with trailing := s.trailing ++ [c] } := by
        have := run_trailing (cs := [c]) hp (by simpa using hb')
        simp only [runDocument] at this
        cases hr : stepDocument s c with
        | error f => rw [hr] at this; cases this
        | ok s1 => rw [hr] at this; simpa using this
      rw [hbod]
      have ih := ih { s with trailing := s.trailing ++ [c] } (.inl hp)
      constructor
      · intro hall
        obtain ⟨s', h1, h2, h3, h4⟩ := ih.1 hall
        refine ⟨s', ?_, h2, ?_, h4⟩
        · simp only [runDocument, hstep]; exact h1
        · rw [h3]; simp [hb']
      · intro a c' b f h1 h2 h3
        simp only [runDocument, hstep]
        exact ih.2 a c' b f h1 h2 h3

/-- The first document environment that cannot be converted. -/
theorem first_bad (bs : List Ast2.Chunk) : (∀ x ∈ bs, ∃ out, mathsFromChunks [x] = .ok out) ∨
    ∃ a c b f, bs = a ++ c :: b ∧ (∀ x ∈ a, ∃ out, mathsFromChunks [x] = .ok out) ∧ mathsFromChunks [c] = .error f := by
  induction bs with
  | nil => exact .inl (by simp)
  | cons c bs ih =>
    cases hc : mathsFromChunks [c] with
    | error f => exact .inr ⟨[], c, bs, f, rfl, by simp, hc⟩
    | ok out =>
      rcases ih with h | ⟨a, c', b, f, h1, h2, h3⟩
      · refine .inl fun x hx => ?_
        rcases List.mem_cons.1 hx with rfl | hx
        · exact ⟨out, hc⟩
        · exact h x hx
      · refine .inr ⟨c :: a, c', b, f, by simp [h1], fun x hx => ?_, h3⟩
        rcases List.mem_cons.1 hx with rfl | hx
        · exact ⟨out, hc⟩
        · exact h2 x hx

theorem dropWhile_body (e : List Ast2.Chunk) : e = preambleOf e ++ e.dropWhile (fun c => !isBody c) ∧
    bodiesOf e = bodiesOf (e.dropWhile fun c => !isBody c) ∧
    (e.dropWhile (fun c => !isBody c) = [] ∨ ∃ c r, e.dropWhile (fun c => !isBody c) = c :: r ∧ isBody c = true) := by
  refine ⟨(List.takeWhile_append_dropWhile ..).symm, ?_, ?_⟩
  · induction e with
    | nil => rfl
    | cons c e ih =>
      by_cases h : isBody c = true
      · simp [List.dropWhile_cons, h]
      · simp only [List.dropWhile_cons, h, Bool.not_false, if_true]
        rw [← ih]
        simp [bodiesOf, h]
  · induction e with
    | nil => exact .inl rfl
    | cons c e ih =>
      by_cases h : isBody c = true
      · exact .inr ⟨c, e, by simp [List.dropWhile_cons, h], h⟩
      · simp only [List.dropWhile_cons, h, Bool.not_false, if_true]
        exact ih

/-- The loop, when the classes are in order. -/
theorem run_document {e : List Ast2.Chunk} (hok : ClassesOk (preambleOf e)) :
    ((∀ x ∈ bodiesOf e, ∃ out, mathsFromChunks [x] = .ok out) →
      ∃ s', runDocument e DState.init = .ok s' ∧ s'.preamable = preambleOf e ∧ s'.trailing = trailingOf e ∧
        LastBody (bodiesOf e) (classDocument (preambleOf e)) s'.construct) ∧
    (∀ a c b f, bodiesOf e = a ++ c :: b → (∀ x ∈ a, ∃ out, mathsFromChunks [x] = .ok out) →
      mathsFromChunks [c] = .error f → runDocument e DState.init = .error f) := by
  obtain ⟨h1, h2, h3⟩ := dropWhile_body e
  have hpre := (run_preamble (s := DState.init) rfl (preambleOf_spec e).1 rfl hok).1
  rw [init_read] at hpre
  have hrun : runDocument e DState.init = runDocument (e.dropWhile fun c => !isBody c) ⟨classDocument (preambleOf e), preambleOf e, [], true⟩ := by
    conv => lhs; rw [h1]
    rw [runDocument_append, hpre]
  rw [hrun, h2]
  rcases h3 with h3 | h3
  · rw [h3]
    refine ⟨fun _ => ⟨_, rfl, rfl, by simp [trailingOf, h3], .inl ⟨rfl, rfl⟩⟩, ?_⟩
    intro a c b f h
    simp [bodiesOf] at h
  · have := run_bodies (e.dropWhile fun c => !isBody c) ⟨classDocument (preambleOf e), preambleOf e, [], true⟩ (.inr h3)
    refine ⟨fun hall => ?_, this.2⟩
    obtain ⟨s', g1, g2, g3, g4⟩ := this.1 hall
    exact ⟨s', g1, g2, by rw [g3]; simp [trailingOf], g4⟩

theorem lastBody_iff {e args content pb pe} (h : Body e (.mk chars!"document" args content pb pe)) {d d' : Document} (hd : d.withBody (.mk chars!"document" [] [] [] []) = d)
    (hl : LastBody (bodiesOf e) d d') : d' = d.withBody (.mk chars!"document" args content pb pe) := by
  cases h with
  | none hn =>
    rcases hl with ⟨_, rfl⟩ | ⟨a, l, env, env', h1, _⟩
    · exact hd.symm
    · rw [hn] at h1; simp at h1
  | @last a c l env hn hb =>
    rcases hl with ⟨h1, _⟩ | ⟨a', l', env', env'', h1, h2, rfl⟩
    · rw [hn] at h1; simp at h1
    · rw [hn] at h1
      have := List.append_inj_right' h1 (by simp)
      simp at this
      subst this
      rw [becomes_iff, maths_environment, h2] at hb
      injection hb with hb
      simp at hb
      rw [hb.2]

theorem body_total {e d'} {d : Document} (h : LastBody (bodiesOf e) d d') : ∃ args content pb pe, Body e (.mk chars!"document" args content pb pe) := by
  rcases h with ⟨h1, _⟩ | ⟨a, l, env, env', h1, h2, _⟩
  · exact ⟨_, _, _, _, .none h1⟩
  · have hb : isBody (.mk l (.environment env)) = true := by
      have : Ast2.Chunk.mk l (.environment env) ∈ bodiesOf e := by rw [h1]; simp
      exact (List.mem_filter.1 this).2
    obtain ⟨l', args, content, pb, pe, hc⟩ := isBody_cases hb
    injection hc with _ hc
    injection hc with hc
    subst hc
    obtain ⟨args', content', rfl⟩ := tryEnvironment_label h2
    exact ⟨args', content', pb, pe, .last (l := l) h1 (by rw [becomes_iff, maths_environment, h2])⟩

theorem reads_sound {e r} (h : Reads e r) : tryFrom e = r := by
  have hparts := (dropWhile_body e).1
  have hpb := (preambleOf_spec e).1
  cases h with
  | double hp ha hn =>
    rw [hp] at hparts hpb
    rw [tryFrom, hparts, List.append_assoc, List.cons_append,
      (run_preamble_error rfl (fun c hc => hpb c (by simp [hc])) rfl ha).1 hn]
    rfl
  | tooMany hp ha hn h2 =>
    rw [hp] at hparts hpb
    rw [tryFrom, hparts, List.append_assoc, List.cons_append,
      (run_preamble_error rfl (fun c hc => hpb c (by simp [hc])) rfl ha).2 hn h2]
    rfl
  | body hok hb hall hf =>
    rw [tryFrom, (run_document hok).2 _ _ _ _ hb (fun x hx => by simpa only [becomes_iff] using hall x hx) (becomes_iff.1 hf)]
  | preamble hok hall hf =>
    obtain ⟨s', h1, h2, h3, h4⟩ := (run_document hok).1 (fun x hx => by simpa only [becomes_iff] using hall x hx)
    rw [tryFrom, h1]
    simp only [h2, becomes_iff.1 hf]
  | trailing hok hall hp hf =>
    obtain ⟨s', h1, h2, h3, h4⟩ := (run_document hok).1 (fun x hx => by simpa only [becomes_iff] using hall x hx)
    rw [tryFrom, h1]
    simp only [h2, h3, becomes_iff.1 hp, becomes_iff.1 hf]
  | document hok hall hp ht hb ho =>
    obtain ⟨s', h1, h2, h3, h4⟩ := (run_document hok).1 (fun x hx => by simpa only [becomes_iff] using hall x hx)
    rw [tryFrom, h1]
    simp only [h2, h3, becomes_iff.1 hp, becomes_iff.1 ht, mathsFromChunks_split (becomes_iff.1 hp), mathsFromChunks_split (becomes_iff.1 ht)]
    rw [lastBody_iff hb rfl h4]
    simp [classDocument, Document.withBody, Document.default, readsLists_sound ho]

theorem reads_total (e : List Ast2.Chunk) : ∃ r, Reads e r := by
  rcases classes_total (preambleOf e) with hok | ⟨a, l, args, b, hp, ha, hn | ⟨hn, h2⟩⟩
  · rcases first_bad (bodiesOf e) with hall | ⟨a, c, b, f, h1, h2, h3⟩
    · have hall' : ∀ x ∈ bodiesOf e, ∃ out, Becomes [x] (.ok out) := fun x hx => by simpa only [becomes_iff] using hall x hx
      cases hpre : mathsFromChunks (preambleOf e) with
      | error f => exact ⟨_, .preamble hok hall' (becomes_iff.2 hpre)⟩
      | ok pre =>
        cases htr : mathsFromChunks (trailingOf e) with
        | error f => exact ⟨_, .trailing hok hall' (becomes_iff.2 hpre) (becomes_iff.2 htr)⟩
        | ok post =>
          obtain ⟨s', h1, h2, h3, h4⟩ := (run_document hok).1 hall
          obtain ⟨args, content, pb, pe, hb⟩ := body_total h4
          obtain ⟨os, ho⟩ := readsLists_total (optionLists (classArgs (preambleOf e)))
          exact ⟨_, .document hok hall' (becomes_iff.2 hpre) (becomes_iff.2 htr) hb ho⟩
    · exact ⟨_, .body hok h1 (fun x hx => by simpa only [becomes_iff] using h2 x hx) (becomes_iff.2 h3)⟩
  · exact ⟨_, .double hp ha hn⟩
  · exact ⟨_, .tooMany hp ha hn h2⟩

theorem reads_iff {e r} : tryFrom e = r ↔ Reads e r := by
  constructor
  · rintro rfl
    obtain ⟨r, h⟩ := reads_total e
    rw [reads_sound h]; exact h
  · exact reads_sound

end LatexAst.Ast3
