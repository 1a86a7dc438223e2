import Verif.Spec.Verbatim
import Verif.Proofs.Grammar4

/-! Which sources are printed back as they are. -/

namespace LatexAst.Ast1
open Spec

theorem dropBrackets_sublist (v : ScopeVariant) : ∀ s : Str, (dropBrackets v s).Sublist s
  | [] => by simp [dropBrackets]
  | [c] => by simp only [dropBrackets]; split <;> simp
  | c :: x :: r => by
    by_cases h : c = '\\'
    · subst h
      rw [drop_esc]
      exact ((dropBrackets_sublist v r).cons_cons _).cons_cons _
    · rw [drop_char h]
      split
      · exact (dropBrackets_sublist v (x :: r)).cons _
      · exact (dropBrackets_sublist v (x :: r)).cons_cons _
  termination_by s => s.length

theorem dropBrackets_length (v : ScopeVariant) (s : Str) : (dropBrackets v s).length ≤ s.length := (dropBrackets_sublist v s).length_le

theorem Gap.length_le {g k} (h : Gap g k) : k.length ≤ g.length := by
  induction h with
  | nil => simp
  | plain _ _ ih => simp; exact ih
  | escaped _ _ ih => simp only [List.length_cons]; omega

theorem Gap.exact {g k} (h : Gap g k) (hl : k.length = g.length) : k = g ∧ Blank g := by
  induction h with
  | nil => exact ⟨rfl, by intro c hc; cases hc⟩
  | @plain c g k hc _ ih =>
    obtain ⟨h1, h2⟩ := ih (by simpa using hl)
    refine ⟨by rw [h1], ?_⟩
    intro x hx
    rcases List.mem_cons.1 hx with rfl | hx
    · exact hc
    · exact h2 x hx
  | escaped _ hg ih => have := hg.length_le; simp only [List.length_cons] at hl; omega

theorem gap_blank {g : Str} (h : Blank g) : Gap g g := by
  induction g with
  | nil => exact .nil
  | cons c g ih => exact .plain (h c (.head _)) (ih fun x hx => h x (.tail _ hx))

theorem unescaped_append : ∀ {a b : Str}, NoDangling a → unescaped (a ++ b) = unescaped a ++ unescaped b := by
  intro a
  generalize hn : a.length = n
  induction n using Nat.strongRecOn generalizing a with
  | _ n ih =>
    subst hn
    intro b hd
    cases a with
    | nil => rfl
    | cons c a =>
      by_cases hc : c = '\\'
      · subst hc
        cases a with
        | nil => simp [NoDangling] at hd
        | cons c a =>
          have hd' : NoDangling a := by simpa [NoDangling] using hd
          simp only [List.cons_append, unesc_bs]
          exact ih a.length (by simp; omega) rfl hd'
      · have hd' := (noDangling_cons hc).1 hd
        simp only [List.cons_append, unesc_cons hc, ih a.length (by simp) rfl hd']

theorem unescaped_plain {a : Str} (b : Str) (h : ∀ x ∈ a, x ≠ '\\') : unescaped (a ++ b) = a ++ unescaped b := by
  induction a with
  | nil => rfl
  | cons c a ih =>
    rw [List.cons_append, unesc_cons (h c (.head _)), ih fun x hx => h x (.tail _ hx), List.cons_append]

theorem balanced_count {v : ScopeVariant} : ∀ {s : Str} {n : Nat}, Balanced v n s →
    (unescaped s).count v.opening + n = (unescaped s).count v.closing := by
  intro s
  generalize hn : s.length = n
  induction n using Nat.strongRecOn generalizing s with
  | _ n ih =>
    subst hn
    intro n hb
    cases s with
    | nil => simpa [Balanced, unescaped] using hb
    | cons c s =>
      by_cases hc : c = '\\'
      · subst hc
        cases s with
        | nil => cases v <;> simp [Balanced, unescaped, ScopeVariant.opening, ScopeVariant.closing] at hb ⊢ <;> exact hb
        | cons c s =>
          rw [unesc_bs]
          exact ih s.length (by simp; omega) rfl (balanced_esc.1 hb)
      · rw [unesc_cons hc]
        rw [balanced_char hc] at hb
        have hne : v.opening ≠ v.closing := by cases v <;> decide
        split at hb
        next h =>
          subst h
          have := ih s.length (by simp) rfl hb
          rw [List.count_cons_self, List.count_cons_of_ne hne]
          omega
        next h =>
          split at hb
          next h' =>
            subst h'
            have := ih s.length (by simp) rfl hb.2
            rw [List.count_cons_self, List.count_cons_of_ne hne.symm]
            omega
          next h' =>
            have := ih s.length (by simp) rfl hb
            rw [List.count_cons_of_ne (by simpa using h), List.count_cons_of_ne (by simpa using h')]
            exact this

theorem drop_none {v : ScopeVariant} : ∀ {s : Str}, dropBrackets v s = s → v.opening ∉ unescaped s := by
  intro s
  generalize hn : s.length = n
  induction n using Nat.strongRecOn generalizing s with
  | _ n ih =>
    subst hn
    intro hb
    cases s with
    | nil => simp [unescaped]
    | cons c s =>
      by_cases hc : c = '\\'
      · subst hc
        cases s with
        | nil => cases v <;> simp [unescaped, ScopeVariant.opening]
        | cons c s =>
          rw [unesc_bs]
          rw [drop_esc] at hb
          exact ih s.length (by simp; omega) rfl (by simpa using hb)
      · rw [unesc_cons hc]
        rw [drop_char hc] at hb
        split at hb
        next h =>
          have := (dropBrackets_sublist v s).length_le
          rw [hb] at this
          simp at this
          omega
        next h =>
          have := ih s.length (by simp) rfl (by simpa using hb)
          simp only [List.mem_cons, not_or]
          exact ⟨fun h' => h (.inl h'.symm), this⟩

/-- No scope. -/
def NoSc : ChunkVariant → Prop
  | .scope _ => False
  | _ => True

/-- The hypotheses of the round trip, for one node. -/
def RtHyp : ChunkVariant → Prop
  | .text _ => True
  | .scope (.mk inner _) => AllChunks (NoCl .curly) inner
  | .command (.mk _ args) => ∀ x ∈ args, match x with
    | (_, .mk inner sv) => sv = .curly → AllChunks NoSc inner

/-- What the unescaped characters of a source tell of its nodes. -/
structure Sound (u : Str) (A : (ChunkVariant → Prop) → Prop) : Prop where
  le : u.count '{' ≤ u.count '}'
  eq : u.count '{' = u.count '}' → A (NoCl .curly)
  no : '{' ∉ u → A NoSc
  hyp : A RtHyp

theorem Sound.append {u1 u2 A1 A2} (h1 : Sound u1 A1) (h2 : Sound u2 A2) : Sound (u1 ++ u2) (fun P => A1 P ∧ A2 P) where
  le := by simp only [List.count_append]; have := h1.le; have := h2.le; omega
  eq h := by
    simp only [List.count_append] at h
    have := h1.le; have := h2.le
    exact ⟨h1.eq (by omega), h2.eq (by omega)⟩
  no h := by simp only [List.mem_append, not_or] at h; exact ⟨h1.no h.1, h2.no h.2⟩
  hyp := ⟨h1.hyp, h2.hyp⟩

theorem Sound.nil {u} (h1 : '{' ∉ u) (h2 : '}' ∉ u) : Sound u (fun _ => True) where
  le := by rw [List.count_eq_zero.2 h1]; omega
  eq _ := trivial
  no _ := trivial
  hyp := trivial

/-- The three predicates of `Sound`. -/
def OneOf (P : ChunkVariant → Prop) : Prop := P = NoCl .curly ∨ P = NoSc ∨ P = RtHyp

theorem Sound.congr {u u' A A'} (h : Sound u A) (hu : u' = u) (hA : ∀ P, OneOf P → A P → A' P) : Sound u' A' := by
  subst hu
  exact ⟨h.le, fun x => hA _ (.inl rfl) (h.eq x), fun x => hA _ (.inr (.inl rfl)) (h.no x), hA _ (.inr (.inr rfl)) h.hyp⟩

theorem OneOf.command {P name args} (h : OneOf P) (ha : P = RtHyp → RtHyp (.command (.mk name args))) : P (.command (.mk name args)) := by
  rcases h with rfl | rfl | rfl
  · trivial
  · trivial
  · exact ha rfl

theorem OneOf.text {P t} (h : OneOf P) (ha : '}' ∉ t) : P (.text t) := by
  rcases h with rfl | rfl | rfl
  · exact ha
  · trivial
  · trivial

/-- What is known of a content: the printed form is not longer, and if it is the source, the source is verbatim. -/
def Faithful (s : Str) (o : Outcome) : Prop :=
  ∀ d, o = .ok d → (displayChunks d).length ≤ s.length ∧
    (displayChunks d = s → Verbatim s ∧ Sound (unescaped s) (fun P => AllChunks P d))

theorem outcome_after {c : Chunk} {o : Outcome} {d} (h : o.after c = .ok d) : ∃ cs, o = .ok cs ∧ d = c :: cs := by
  cases o with
  | error e => cases h
  | ok cs => cases h; exact ⟨cs, rfl, rfl⟩

theorem command_ok {l name items rest d} (h : commandOutcome l name items rest = .ok d) :
    ∃ args cs, argOutcome items = .ok args ∧ rest = .ok cs ∧ d = .mk l (.command (.mk name args)) :: cs := by
  unfold commandOutcome at h
  cases ha : argOutcome items with
  | error e => rw [ha] at h; cases h
  | ok args =>
    rw [ha] at h
    obtain ⟨cs, h1, h2⟩ := outcome_after h
    exact ⟨args, cs, rfl, h1, h2⟩

theorem noDangling_append : ∀ {a b : Str}, NoDangling a → NoDangling b → NoDangling (a ++ b) := by
  intro a
  generalize hn : a.length = n
  induction n using Nat.strongRecOn generalizing a with
  | _ n ih =>
    subst hn
    intro b hd hb
    cases a with
    | nil => exact hb
    | cons c a =>
      by_cases hc : c = '\\'
      · subst hc
        cases a with
        | nil => simp [NoDangling] at hd
        | cons c a =>
          have hd' : NoDangling a := by simpa [NoDangling] using hd
          simp only [List.cons_append, NoDangling]
          exact ih a.length (by simp; omega) rfl hd' hb
      · have hd' := (noDangling_cons hc).1 hd
        rw [List.cons_append, noDangling_cons hc]
        exact ih a.length (by simp) rfl hd' hb

theorem noDangling_plain {a : Str} (h : ∀ x ∈ a, x ≠ '\\') : NoDangling a := by
  induction a with
  | nil => simp [NoDangling]
  | cons c a ih => exact (noDangling_cons (h c (.head _))).2 (ih fun x hx => h x (.tail _ hx))

theorem written_args {w ws} (h : Written w ws) : ∀ (items : List (WrittenArg × Outcome)) (args : List (Str × Scope)), items.map (·.1) = ws →
    argOutcome items = .ok args → (∀ x ∈ items, Faithful (dropBrackets x.1.kind x.1.content) x.2) →
    (displayArgs args).length ≤ w.length ∧
      (displayArgs args = w → NoDangling w ∧ Sound (unescaped w) (fun P => AllArgs P args ∧ (P = RtHyp → ∀ name, RtHyp (.command (.mk name args)))) ∧
        ∃ contents, PlainArgs w contents ∧ (∀ a ∈ contents, Verbatim a) ∧ (w = [] ↔ ws = [])) := by
  induction h with
  | none =>
    intro items args he ho hf
    cases items with
    | cons x items => cases he
    | nil => cases ho; exact ⟨by simp [displayArgs], fun _ => ⟨by simp [NoDangling],
      (Sound.nil (u := unescaped []) (by simp [unescaped]) (by simp [unescaped])).congr rfl (fun P _ _ => ⟨trivial, fun _ _ => by simp [RtHyp]⟩),
      [], .none, (by intro a h; cases h), by simp⟩⟩
  | @arg g p b v a w ws hg hb hd hbal _ ih =>
    intro items args he ho hf
    cases items with
    | nil => cases he
    | cons x items =>
      obtain ⟨x, o⟩ := x
      simp only [List.map_cons, List.cons.injEq] at he
      obtain ⟨rfl, he⟩ := he
      simp only [argOutcome] at ho
      cases o with
      | error e => cases ho
      | ok inner =>
        simp only at ho
        cases hr : argOutcome items with
        | error e => rw [hr] at ho; cases ho
        | ok as =>
          rw [hr] at ho
          cases ho
          obtain ⟨i1, i2⟩ := ih items as he hr fun x hx => hf x (.tail _ hx)
          obtain ⟨f1, f2⟩ := hf _ (.head _) inner rfl
          simp only at f1 f2
          have hlen := dropBrackets_length v a
          have hgl := hg.length_le
          have hdis : displayArgs ((p, Scope.mk inner v) :: as) = p ++ v.opening :: (displayChunks inner ++ v.closing :: displayArgs as) := by
            simp [displayArgs, Scope.display]
          rw [hdis]
          refine ⟨by simp only [List.length_append, List.length_cons]; omega, fun heq => ?_⟩
          have hl := congrArg List.length heq
          simp only [List.length_append, List.length_cons] at hl
          obtain ⟨rfl, hbl⟩ := hg.exact (by omega)
          have hb0 : b = [] := List.length_eq_zero_iff.1 (by omega)
          subst hb0
          simp only [List.append_nil] at heq
          have heq2 := (List.append_inj heq rfl).2
          simp only [List.cons.injEq, true_and] at heq2
          obtain ⟨h3, h4⟩ := List.append_inj heq2 (by omega)
          simp only [List.cons.injEq, true_and] at h4
          have hda : dropBrackets v a = a := by
            -- same length as a subsequence
            have : (dropBrackets v a).Sublist a := dropBrackets_sublist v a
            exact this.eq_of_length (by omega)
          obtain ⟨nd, snd, contents, c1, c2, _⟩ := i2 h4
          rw [hda] at f2
          obtain ⟨f3, f4⟩ := f2 h3
          simp only [List.append_nil]
          have hbs : ∀ x ∈ p, x ≠ '\\' ∧ x ≠ '{' ∧ x ≠ '}' := by
            intro x hx
            have := hbl x hx
            refine ⟨?_, ?_, ?_⟩ <;> rintro rfl <;> revert this <;> decide
          have hop : v.opening ≠ '\\' := by cases v <;> decide
          have hcl : v.closing ≠ '\\' := by cases v <;> decide
          have hu : unescaped (p ++ v.opening :: (a ++ v.closing :: w)) = p ++ ((v.opening :: (unescaped a ++ [v.closing])) ++ unescaped w) := by
            rw [unescaped_plain _ fun x hx => (hbs x hx).1, unesc_cons hop, unescaped_append hd, unesc_cons hcl]
            simp
          have hnd : NoDangling (p ++ v.opening :: (a ++ v.closing :: w)) := by
            refine noDangling_append (noDangling_plain fun x hx => (hbs x hx).1) ((noDangling_cons hop).2 ?_)
            exact noDangling_append hd ((noDangling_cons hcl).2 nd)
          have hs : Sound (v.opening :: (unescaped a ++ [v.closing])) (fun P => AllChunks P inner ∧ (P = RtHyp → v = .curly → AllChunks NoSc inner)) := by
            cases v with
            | curly =>
              have hbc := balanced_count hbal
              simp only [ScopeVariant.opening, ScopeVariant.closing] at hbc ⊢
              have hno := drop_none hda
              simp only [ScopeVariant.opening] at hno
              refine ⟨?_, fun _ => ⟨f4.eq (by omega), fun _ _ => f4.no hno⟩, fun _ => ⟨f4.no hno, fun _ _ => f4.no hno⟩, f4.hyp, fun _ _ => f4.no hno⟩
              simp only [List.count_cons, List.count_append, List.count_nil]
              simp
              omega
            | square =>
              simp only [ScopeVariant.opening, ScopeVariant.closing]
              have := (Sound.nil (u := ['[']) (by decide) (by decide)).append (f4.append (Sound.nil (u := [']']) (by decide) (by decide)))
              exact this.congr rfl fun P _ hP => ⟨hP.2.1, fun _ h => by cases h⟩
            | round =>
              simp only [ScopeVariant.opening, ScopeVariant.closing]
              have := (Sound.nil (u := ['(']) (by decide) (by decide)).append (f4.append (Sound.nil (u := [')']) (by decide) (by decide)))
              exact this.congr rfl fun P _ hP => ⟨hP.2.1, fun _ h => by cases h⟩
          refine ⟨hnd, ?_, a :: contents, .arg hbl hd hbal hda c1, ?_, by simp⟩
          · refine ((Sound.nil (fun h => (hbs _ h).2.1 rfl) (fun h => (hbs _ h).2.2 rfl)).append (hs.append snd)).congr hu fun P _ hP => ⟨⟨hP.2.1.1, hP.2.2.1⟩, fun hr name => ?_⟩
            have h1 := hP.2.1.2 hr
            have h2 := hP.2.2.2 hr name
            simp only [RtHyp] at h2 ⊢
            intro x hx
            rcases List.mem_cons.1 hx with rfl | hx
            · exact h1
            · exact h2 x hx
          intro y hy
          rcases List.mem_cons.1 hy with rfl | hy
          · exact f3
          · exact c2 y hy

theorem follows_goesOn {w g t} {ws : List WrittenArg} (h : w = [] ↔ ws = []) : FollowsCommand w g t ↔ GoesOn ws g t := by
  unfold FollowsCommand GoesOn
  simp only [Ne, h]

theorem sound_command {l name w r args cs} (hn : LetterName name) (nd : NoDangling w)
    (h1 : Sound (unescaped w) (fun P => AllArgs P args ∧ (P = RtHyp → ∀ name, RtHyp (.command (.mk name args)))))
    (h2 : Sound (unescaped r) (fun P => AllChunks P cs)) :
    Sound (unescaped ('\\' :: (name ++ (w ++ r)))) (fun P => AllChunks P (.mk l (.command (.mk name args)) :: cs)) := by
  obtain ⟨c, n, rfl, _, hr⟩ := hn
  have hbs : ∀ x ∈ n, x ≠ '\\' ∧ x ≠ '{' ∧ x ≠ '}' := by
    intro x hx
    have := (hr x hx).2
    refine ⟨?_, ?_, ?_⟩ <;> rintro rfl <;> exact this (by simp [Special])
  refine ((Sound.nil (u := n) (fun h => (hbs _ h).2.1 rfl) (fun h => (hbs _ h).2.2 rfl)).append (h1.append h2)).congr ?_ ?_
  · rw [List.cons_append, unesc_bs, unescaped_plain _ fun x hx => (hbs x hx).1, unescaped_append nd]
  · rintro P hp ⟨_, ⟨h3, h4⟩, h5⟩
    exact ⟨⟨hp.command fun h => h4 h _, h3⟩, h5⟩

theorem reads_faithful {l s o} (h : Reads l s o) : Faithful s o := by
  induction h with
  | nil => intro d hd; cases hd; exact ⟨by simp [displayChunks], fun _ => ⟨.nil,
    (Sound.nil (u := unescaped []) (by simp [unescaped]) (by simp [unescaped])).congr rfl fun _ _ _ => trivial⟩⟩
  | @text l t r o ht hx he _ ih =>
    intro d hd
    obtain ⟨cs, ho, rfl⟩ := outcome_after hd
    obtain ⟨i1, i2⟩ := ih cs ho
    have hdis : displayChunks (.mk l (.text t) :: cs) = t ++ displayChunks cs := by simp [displayChunks, Chunk.display, ChunkVariant.display]
    rw [hdis]
    refine ⟨by simp only [List.length_append]; omega, fun heq => ?_⟩
    obtain ⟨k1, k2⟩ := i2 (List.append_cancel_left heq)
    refine ⟨.text ht hx he k1, ?_⟩
    have hs : Sound t (fun P => (Chunk.mk l (.text t)).All P) := by
      have h0 : List.count '{' t = 0 := List.count_eq_zero.2 fun h => (by have := hx _ h; simp at this)
      refine ⟨by omega, fun h => ?_, fun _ => trivial, trivial⟩
      show NoCl .curly (.text t)
      exact List.count_eq_zero.1 (by simp only [ScopeVariant.closing]; omega)
    exact (hs.append k2).congr (unescaped_plain _ fun x h => by have := hx x h; simp at this; exact this.1) fun P _ hP => hP
  | @scope l v a r i o hd hb _ _ ih1 ih2 =>
    intro d hdd
    unfold scopeOutcome at hdd
    cases i with
    | error e => cases hdd
    | ok inner =>
      obtain ⟨cs, ho, rfl⟩ := outcome_after hdd
      obtain ⟨i1, i2⟩ := ih1 inner rfl
      obtain ⟨j1, j2⟩ := ih2 cs ho
      have hdis : displayChunks (.mk l (.scope (.mk inner .curly)) :: cs) = '{' :: (displayChunks inner ++ '}' :: displayChunks cs) := by
        simp [displayChunks, Chunk.display, ChunkVariant.display, Scope.display, ScopeVariant.opening, ScopeVariant.closing]
      rw [hdis]
      refine ⟨by simp only [List.length_append, List.length_cons]; omega, fun heq => ?_⟩
      have hl := congrArg List.length heq
      simp only [List.length_append, List.length_cons] at hl
      simp only [List.cons.injEq] at heq
      obtain ⟨hv, heq⟩ := heq
      have hv' : v = .curly := by cases v <;> simp [ScopeVariant.opening] at hv ⊢
      subst hv'
      obtain ⟨h3, h4⟩ := List.append_inj heq (by omega)
      simp only [List.cons.injEq] at h4
      obtain ⟨k1, k2⟩ := i2 h3
      obtain ⟨m1, m2⟩ := j2 h4.2
      refine ⟨.scope hd hb k1 m1, ?_⟩
      have hbc := balanced_count hb
      simp only [ScopeVariant.opening, ScopeVariant.closing] at hbc
      have hs : Sound ('{' :: (unescaped a ++ ['}'])) (fun P => (Chunk.mk l (.scope (.mk inner .curly))).All P) := by
        refine ⟨?_, fun _ => ⟨trivial, k2.eq (by omega)⟩, fun h => by simp at h, k2.eq (by omega), k2.hyp⟩
        simp only [List.count_cons, List.count_append, List.count_nil]
        simp
        omega
      refine (hs.append m2).congr ?_ fun P _ hP => hP
      simp only [ScopeVariant.opening, ScopeVariant.closing]
      rw [unesc_cons (by decide), unescaped_append hd, unesc_cons (by decide)]
      simp
  | openScope _ => intro d hd; cases hd
  | @symbol l c r o hc _ ih =>
    intro d hd
    obtain ⟨cs, ho, rfl⟩ := outcome_after hd
    obtain ⟨i1, i2⟩ := ih cs ho
    have hdis : ∀ l, displayChunks (.mk l (.command (.mk [c] [])) :: cs) = '\\' :: c :: displayChunks cs := by
      intro l
      simp [displayChunks, Chunk.display, ChunkVariant.display, Command.display, displayArgs]
    rw [hdis]
    refine ⟨by simp only [List.length_cons]; omega, fun heq => ?_⟩
    simp only [List.cons.injEq, true_and] at heq
    obtain ⟨k1, k2⟩ := i2 heq
    exact ⟨.symbol hc k1, k2.congr (unesc_bs _ _) fun P hp hP => ⟨⟨hp.command fun _ => by simp [RtHyp], trivial⟩, hP⟩⟩
  | @command l name w g k t o items hn hw hg hgo _ _ ih1 ih2 =>
    intro d hd
    obtain ⟨args, cs, ha, ho, rfl⟩ := command_ok hd
    obtain ⟨i1, i2⟩ := written_args hw items args rfl ha ih1
    obtain ⟨j1, j2⟩ := ih2 cs ho
    have hgl := hg.length_le
    have hdis : displayChunks (.mk l (.command (.mk name args)) :: cs) = '\\' :: (name ++ (displayArgs args ++ displayChunks cs)) := by
      simp [displayChunks, Chunk.display, ChunkVariant.display, Command.display]
    rw [hdis]
    simp only [List.length_append] at j1
    refine ⟨by simp only [List.length_append, List.length_cons]; omega, fun heq => ?_⟩
    have hl := congrArg List.length heq
    simp only [List.length_append, List.length_cons] at hl
    simp only [List.cons.injEq, true_and, List.append_cancel_left_eq] at heq
    obtain ⟨h3, h4⟩ := List.append_inj heq (by omega)
    obtain ⟨rfl, hbl⟩ := hg.exact (by omega)
    obtain ⟨nd, snd, contents, c1, c2, c3⟩ := i2 h3
    obtain ⟨m1, m2⟩ := j2 h4
    exact ⟨.command hn c1 c2 hbl ((follows_goesOn c3).2 hgo) m1, sound_command hn nd snd m2⟩
  | @lastCommand l name w g k items hn hw hg _ ih1 =>
    intro d hd
    obtain ⟨args, cs, ha, ho, rfl⟩ := command_ok hd
    obtain ⟨i1, i2⟩ := written_args hw items args rfl ha ih1
    have hgl := hg.length_le
    have hcs : displayChunks cs = k := by
      cases ho
      split
      next h => rw [h]; rfl
      next h => simp [displayChunks, Chunk.display, ChunkVariant.display]
    have hdis : displayChunks (.mk l (.command (.mk name args)) :: cs) = '\\' :: (name ++ (displayArgs args ++ displayChunks cs)) := by
      simp [displayChunks, Chunk.display, ChunkVariant.display, Command.display]
    rw [hdis, hcs]
    refine ⟨by simp only [List.length_append, List.length_cons]; omega, fun heq => ?_⟩
    have hl := congrArg List.length heq
    simp only [List.length_append, List.length_cons] at hl
    simp only [List.cons.injEq, true_and, List.append_cancel_left_eq] at heq
    obtain ⟨h3, h4⟩ := List.append_inj heq (by omega)
    obtain ⟨rfl, hbl⟩ := hg.exact (by omega)
    obtain ⟨nd, snd, contents, c1, c2, c3⟩ := i2 h3
    refine ⟨.lastCommand hn c1 c2 hbl, sound_command hn nd snd ?_⟩
    have hbs : ∀ x ∈ k, x ≠ '\\' ∧ x ≠ '{' ∧ x ≠ '}' := by
      intro x hx
      have := hbl x hx
      refine ⟨?_, ?_, ?_⟩ <;> rintro rfl <;> revert this <;> decide
    refine (Sound.nil (u := k) (fun h => (hbs _ h).2.1 rfl) (fun h => (hbs _ h).2.2 rfl)).congr ?_ ?_
    · have := unescaped_plain [] fun x hx => (hbs x hx).1
      simpa [unescaped] using this
    · intro P hp _
      cases ho
      split
      · trivial
      · exact ⟨hp.text fun h => (hbs _ h).2.2 rfl, trivial⟩
  | openArgument => intro d hd; cases hd
  | closing => intro d hd; cases hd

/-- What is wanted of a content. -/
def PrintsBack (s : Str) : Prop := ∀ l, ∃ d, Reads l s (.ok d) ∧ displayChunks d = s

theorem plain_written {w contents} (h : PlainArgs w contents) (hc : ∀ a ∈ contents, PrintsBack a) :
    ∃ (items : List (WrittenArg × Outcome)) (args : List (Str × Scope)), Written w (items.map (·.1)) ∧ argOutcome items = .ok args ∧
      (∀ x ∈ items, Reads 1 (dropBrackets x.1.kind x.1.content) x.2) ∧ displayArgs args = w ∧ (w = [] ↔ items.map (·.1) = []) := by
  induction h with
  | none => exact ⟨[], [], .none, rfl, (by intro x hx; cases hx), rfl, by simp⟩
  | @arg g a w contents v hg hd hb hda _ ih =>
    obtain ⟨items, args, h1, h2, h3, h4, h5⟩ := ih fun a ha => hc a (.tail _ ha)
    obtain ⟨d, hr, hdis⟩ := hc a (.head _) 1
    refine ⟨(⟨g, v, a⟩, .ok d) :: items, (g, .mk d v) :: args, ?_, ?_, ?_, ?_, by simp⟩
    · have := Written.arg (b := []) (gap_blank hg) (.inl rfl) hd hb h1
      simpa using this
    · simp [argOutcome, h2]
    · intro x hx
      rcases List.mem_cons.1 hx with rfl | hx
      · simpa [hda] using hr
      · exact h3 x hx
    · simp [displayArgs, Scope.display, hdis, h4]

theorem verbatim_printsBack {s} (h : Verbatim s) : PrintsBack s := by
  induction h with
  | nil => exact fun l => ⟨[], .nil, rfl⟩
  | @text t r ht hx he _ ih =>
    intro l
    obtain ⟨d, h1, h2⟩ := ih (l + t.count '\n')
    exact ⟨_, .text ht hx he h1, by simp [displayChunks, Chunk.display, ChunkVariant.display, h2]⟩
  | @scope a r hd hb _ _ ih1 ih2 =>
    intro l
    obtain ⟨i, h1, h2⟩ := ih1 1
    obtain ⟨d, h3, h4⟩ := ih2 (l + a.count '\n')
    refine ⟨_, .scope (v := .curly) hd hb h1 h3, ?_⟩
    simp [displayChunks, Chunk.display, ChunkVariant.display, Scope.display, ScopeVariant.opening, ScopeVariant.closing, h2, h4]
  | @symbol c r hc _ ih =>
    intro l
    obtain ⟨d, h1, h2⟩ := ih (l + [c].count '\n')
    exact ⟨_, .symbol hc h1, by simp [displayChunks, Chunk.display, ChunkVariant.display, Command.display, displayArgs, h2]⟩
  | @command name w g t contents hn hw _ hg hf _ ih1 ih2 =>
    intro l
    obtain ⟨items, args, h1, h2, h3, h4, h5⟩ := plain_written hw ih1
    obtain ⟨d, h6, h7⟩ := ih2 (l + w.count '\n')
    refine ⟨.mk l (.command (.mk name args)) :: d, ?_, ?_⟩
    · have := Reads.command (l := l) hn h1 (gap_blank hg) ((follows_goesOn h5).1 hf) h3 h6
      simpa only [commandOutcome, h2, Outcome.after] using this
    · simp [displayChunks, Chunk.display, ChunkVariant.display, Command.display, h4, h7]
  | @lastCommand name w g contents hn hw _ hg ih1 =>
    intro l
    obtain ⟨items, args, h1, h2, h3, h4, h5⟩ := plain_written hw ih1
    have := Reads.lastCommand (l := l) hn h1 (gap_blank hg) h3
    simp only [commandOutcome, h2, Outcome.after] at this
    refine ⟨_, this, ?_⟩
    split
    next h => simp [displayChunks, Chunk.display, ChunkVariant.display, Command.display, h4, h]
    next h => simp [displayChunks, Chunk.display, ChunkVariant.display, Command.display, h4]

theorem dropDangling_sublist : ∀ s : Str, (dropDangling s).Sublist s
  | [] => by simp [dropDangling]
  | [c] => by unfold dropDangling; split <;> simp_all [dropDangling]
  | c :: x :: r => by
    by_cases h : c = '\\'
    · subst h
      simp only [dropDangling]
      exact ((dropDangling_sublist r).cons_cons _).cons_cons _
    · rw [show dropDangling (c :: x :: r) = c :: dropDangling (x :: r) by rw [dropDangling] <;> simp_all]
      exact (dropDangling_sublist (x :: r)).cons_cons _
  termination_by s => s.length

theorem keep_sublist : ∀ s : Str, (keepBackslashes s).Sublist s ∧ (keepFirstBackslash s).Sublist s ∧ (dropRestOfLine s).Sublist s := by
  intro s
  generalize hn : s.length = n
  induction n using Nat.strongRecOn generalizing s with
  | _ n ih =>
    subst hn
    cases s with
    | nil => simp [keepBackslashes, keepFirstBackslash, dropRestOfLine]
    | cons c s =>
      obtain ⟨i1, i2, i3⟩ := ih s.length (by simp) s rfl
      refine ⟨?_, ?_, ?_⟩
      · by_cases h1 : c = '%'
        · subst h1; simp only [keepBackslashes]; exact i2.cons _
        · by_cases h2 : c = '\\'
          · subst h2
            cases s with
            | nil => simp [keepBackslashes]
            | cons d s =>
              obtain ⟨j1, _, _⟩ := ih s.length (by simp; omega) s rfl
              simp only [keepBackslashes]
              exact (j1.cons_cons _).cons_cons _
          · rw [show keepBackslashes (c :: s) = c :: keepBackslashes s by simp [keepBackslashes, h1, h2]]
            exact i1.cons_cons _
      · by_cases h1 : c = '\n'
        · subst h1; simp only [keepFirstBackslash]; exact i1.cons_cons _
        · by_cases h2 : c = '\\'
          · subst h2; simp only [keepFirstBackslash]; exact i3.cons_cons _
          · rw [show keepFirstBackslash (c :: s) = keepFirstBackslash s by simp [keepFirstBackslash, h1, h2]]
            exact i2.cons _
      · by_cases h1 : c = '\n'
        · subst h1; simp only [dropRestOfLine]; exact i1.cons_cons _
        · rw [show dropRestOfLine (c :: s) = dropRestOfLine s by simp [dropRestOfLine, h1]]
          exact i3.cons _

theorem plain_clean {w contents} (h : PlainArgs w contents) (hc : ∀ a ∈ contents, Clean a) : Clean w := by
  induction h with
  | none => exact .nil
  | @arg g a w contents v hg hd hb hda _ ih =>
    refine (gap_blank hg).clean.append (clean_opening.2 ?_)
    exact (hc a (.head _)).append (clean_closing.2 (ih fun a ha => hc a (.tail _ ha)))

theorem verbatim_clean {s} (h : Verbatim s) : Clean s := by
  induction h with
  | nil => exact .nil
  | @text t r ht hx he _ ih =>
    exact (clean_text fun x hh => hx x hh).append ih
  | @scope a r hd hb _ _ ih1 ih2 =>
    exact (clean_opening (v := .curly)).2 (ih1.append ((clean_closing (v := .curly)).2 ih2))
  | symbol hc _ ih => exact clean_esc_iff.2 ih
  | @command name w g t contents hn hw _ hg hf _ ih1 ih2 =>
    obtain ⟨c, r, rfl, hc, hr⟩ := hn
    rw [List.cons_append, clean_esc_iff]
    refine Clean.append (clean_sanitised fun x hx => ?_) ((plain_clean hw ih1).append ih2)
    have := hr x hx
    simp_all
  | @lastCommand name w g contents hn hw _ hg ih1 =>
    obtain ⟨c, r, rfl, hc, hr⟩ := hn
    rw [List.cons_append, clean_esc_iff]
    refine Clean.append (clean_sanitised fun x hx => ?_) ((plain_clean hw ih1).append (gap_blank hg).clean)
    have := hr x hx
    simp_all

/-- What is read as itself meets the hypotheses of the round trip. -/
theorem printed_hyp {d : Document} (hd : fromStr (displayChunks d) = .ok d) : AllChunks RtHyp d := by
  generalize hs : displayChunks d = s at hd
  have hr := (reads_any s (.ok d)).2 hd
  have hf := reads_faithful hr d rfl
  have hsub := (dropDangling_sublist (keepBackslashes s)).trans (keep_sublist s).1
  have : dropDangling (keepBackslashes s) = s := by
    refine hsub.eq_of_length ?_
    have := hsub.length_le
    have := hf.1
    rw [hs] at this
    omega
  rw [this] at hf
  exact (hf.2 hs).2.hyp

/-- The sources that are printed back as they are. -/
theorem verbatim_iff (s : Str) : (∃ d, fromStr s = .ok d ∧ displayChunks d = s) ↔ Verbatim s := by
  constructor
  · rintro ⟨d, hd, he⟩
    have hr := (reads_any s (.ok d)).2 hd
    have hf := reads_faithful hr d rfl
    have hsub := (dropDangling_sublist (keepBackslashes s)).trans (keep_sublist s).1
    have : dropDangling (keepBackslashes s) = s := by
      refine hsub.eq_of_length ?_
      have := hsub.length_le
      have := hf.1
      rw [he] at this
      omega
    rw [this] at hf
    exact (hf.2 he).1
  · intro h
    obtain ⟨d, h1, h2⟩ := verbatim_printsBack h 1
    exact ⟨d, (reads_iff (verbatim_clean h) (.ok d)).1 h1, h2⟩

end LatexAst.Ast1
