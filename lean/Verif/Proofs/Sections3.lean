import Verif.Proofs.Back3

/-! Invariants of the document loop. -/

namespace LatexAst.Ast3
open Spec

/-- `D` holds of sequences to convert, `P` of converted sequences, `E` of failures. -/
structure Converting (D : List Ast2.Chunk → Prop) (P : List Chunk → Prop) (E : Fail → Prop) : Prop where
  nil : P []
  mono : ∀ {a b}, D b → a.Sublist b → D a
  child : ∀ {a inner}, D a → Ast2.Child2 a inner → D inner
  run : ∀ {cs}, D cs → Post (mathsFromChunks cs) P E

/-- The state of the document loop after the chunks of `done`. -/
structure SectInv (P : List Chunk → Prop) (done : List Ast2.Chunk) (s : DState) : Prop where
  body : P s.construct.body
  args : ∀ p inner sv, (p, Scope.mk inner sv) ∈ s.construct.bodyArgs → P inner
  pre : s.preamable.Sublist done
  post : s.trailing.Sublist done

/-- A failure of `\documentclass`. -/
def ClassFailure (e : List Ast2.Chunk) (f : Fail) : Prop :=
  ∃ l args t, f = .err ⟨l, t⟩ ∧ Ast2.Chunk.mk l (.command (.mk chars!"documentclass" args)) ∈ e

theorem post_environment {D P E args content} {label pb pe} (hc : Converting D P E)
    (ha : ∀ p inner sv, (p, Ast2.Scope.mk inner sv) ∈ args → D inner) (hd : D content) :
    Post (tryEnvironment mathsFromChunks (.mk label args content pb pe)) (fun x => ∃ args' content',
      x = .mk label args' content' pb pe ∧ P content' ∧ ∀ p inner sv, (p, Scope.mk inner sv) ∈ args' → P inner) E := by
  refine post_tryEnvironment ?_
  refine Post.mono (post_args (Q := fun _ args' => ∀ p inner sv, (p, Scope.mk inner sv) ∈ args' → P inner) (by simp) ?_) ?_ fun _ h => h
  · intro p inner sv r hm
    have := hc.run (ha p inner sv hm)
    cases hr : mathsFromChunks inner with
    | error f => rw [hr] at this; exact this
    | ok out =>
      rw [hr] at this
      intro r' h' q i v hm
      rcases List.mem_cons.1 hm with h | h
      · cases h; rw [mathsFromChunks_split hr]; exact this
      · exact h' q i v h
  · intro args' h1
    have := hc.run hd
    cases hr : mathsFromChunks content with
    | error f => rw [hr] at this; exact this
    | ok out =>
      rw [hr] at this
      refine ⟨args', _, rfl, ?_, h1⟩
      rw [mathsFromChunks_split hr]; exact this

theorem SectInv.push {P done} {s : DState} (h : SectInv P done s) {l v} : SectInv P (done ++ [.mk l v]) (s.push l v) := by
  obtain ⟨h1, h2, h3, h4⟩ := h
  unfold DState.push
  split
  · exact ⟨h1, h2, h3.append (List.Sublist.refl _), h4.trans (List.sublist_append_left _ _)⟩
  · exact ⟨h1, h2, h3.trans (List.sublist_append_left _ _), h4.append (List.Sublist.refl _)⟩

theorem post_stepDocument {D P E e done} (hc : Converting D P E) (hD : D e) {s : DState} (hs : SectInv P done s) {l v} (hm : Ast2.Chunk.mk l v ∈ e) :
    Post (stepDocument s (.mk l v)) (SectInv P (done ++ [.mk l v])) (fun f => E f ∨ ClassFailure e f) := by
  cases v with
  | text t => exact hs.push
  | scope sc => exact hs.push
  | environment env =>
    obtain ⟨label, args, content, pb, pe⟩ := env
    simp only [stepDocument]
    by_cases hl : label = chars!"document"
    · subst hl
      rw [if_pos (by rfl)]
      have := post_environment (label := chars!"document") (pb := pb) (pe := pe) hc
        (fun p inner sv h => hc.child hD (.envArg hm h)) (hc.child hD (.envContent hm))
      cases hr : tryEnvironment mathsFromChunks (.mk chars!"document" args content pb pe) with
      | error f => rw [hr] at this; exact .inl this
      | ok x =>
        rw [hr] at this
        obtain ⟨args', content', rfl, h1, h2⟩ := this
        exact ⟨h1, h2, hs.pre.trans (List.sublist_append_left _ _), hs.post.trans (List.sublist_append_left _ _)⟩
    · rw [if_neg (by exact hl)]; exact hs.push
  | command cmd =>
    obtain ⟨label, args⟩ := cmd
    simp only [stepDocument]
    by_cases hl : label = chars!"documentclass" ∧ s.inPreamable = true
    · rw [if_pos (by exact hl)]
      obtain ⟨hl, hp⟩ := hl
      subst hl
      by_cases hi : s.construct.documentclass.isSome = true
      · rw [if_pos hi]; exact .inr ⟨l, args, _, rfl, hm⟩
      · rw [if_neg hi]
        by_cases hx : (s.construct.documentclass.toList ++ classNames args).length ≤ 1
        · simp only [Ast2.Command.arguments]; rw [docClassArgs_ok hx]
          refine SectInv.push (s := ⟨_, s.preamable, s.trailing, s.inPreamable⟩) ?_
          exact ⟨hs.body, hs.args, hs.pre, hs.post⟩
        · simp only [Ast2.Command.arguments]; rw [docClassArgs_error hx]
          exact .inr ⟨l, args, _, rfl, hm⟩
    · rw [if_neg (by exact hl)]; exact hs.push

theorem post_runDocument {D P E e} (hc : Converting D P E) (hD : D e) : ∀ (cs done : List Ast2.Chunk), e = done ++ cs → ∀ s : DState, SectInv P done s →
    Post (runDocument cs s) (SectInv P e) (fun f => E f ∨ ClassFailure e f)
  | [], done, he, s, hs => by simp at he; subst he; exact hs
  | .mk l v :: cs, done, he, s, hs => by
    have := post_stepDocument hc hD hs (l := l) (v := v) (by simp [he])
    simp only [runDocument]
    cases hr : stepDocument s (.mk l v) with
    | error f => rw [hr] at this; exact this
    | ok s1 =>
      rw [hr] at this
      exact post_runDocument hc hD cs (done ++ [Ast2.Chunk.mk l v]) (by simp [he]) s1 (by exact this)

/-- What holds of every converted sequence holds of all the sections of a document. -/
theorem post_tryFrom {D P E e} (hc : Converting D P E) (hD : D e) :
    Post (tryFrom e) (fun f => P f.preamable ∧ (∀ p inner sv, (p, Scope.mk inner sv) ∈ f.bodyArgs → P inner) ∧ P f.body ∧ P f.trailing)
      (fun f => E f ∨ ClassFailure e f) := by
  have := post_runDocument hc hD e [] rfl DState.init ⟨hc.nil, by simp [DState.init, Document.default], by simp [DState.init], by simp [DState.init]⟩
  unfold tryFrom
  cases hr : runDocument e DState.init with
  | error f => rw [hr] at this; exact this
  | ok s =>
    rw [hr] at this
    have h1 := hc.run (hc.mono hD this.pre)
    have h2 := hc.run (hc.mono hD this.post)
    simp only
    cases hp : mathsFromChunks s.preamable with
    | error f => rw [hp] at h1; exact .inl h1
    | ok pre =>
      cases ht : mathsFromChunks s.trailing with
      | error f => rw [ht] at h2; exact .inl h2
      | ok tr =>
        rw [hp] at h1; rw [ht] at h2
        refine ⟨?_, this.args, this.body, ?_⟩
        · simp only [mathsFromChunks_split hp]; exact h1
        · simp only [mathsFromChunks_split ht]; exact h2

end LatexAst.Ast3
