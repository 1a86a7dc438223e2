import Verif.Spec.Enclosed
import Verif.Proofs.LeadingBlanks1
import Verif.Proofs.Complete2
import Verif.Props.FinalBlanks

/-!
# Enclosing a source in an environment, stage 1
-/

namespace LatexAst.Ast1
open Spec

/-- Followed by a command, blanks after a letter command at the end are numbered with the line on which they begin. -/
inductive Refined : List Chunk → List Chunk → Prop
  | same {d} : Refined d d
  | blanks {init l k} : Blank k → Refined (init ++ [.mk (l + k.count '\n') (.text k)]) (init ++ [.mk l (.text k)])

theorem Refined.cons {d d'} (c : Chunk) (h : Refined d d') : Refined (c :: d) (c :: d') := by
  cases h with
  | same => exact .same
  | @blanks init l k hk => exact .blanks (init := c :: init) hk

/-- A source that begins with a command. -/
def CommandFirst (b : Str) : Prop := ∃ c r, b = '\\' :: c :: r ∧ isWhitespace c = false ∧ c ∉ ['{', '[', '(']

theorem CommandFirst.textEnds {b} (h : CommandFirst b) : TextEnds b := by
  obtain ⟨c, r, rfl, _⟩ := h
  intro c' r' e
  injection e with e _; subst e; simp

theorem Reads.append_command {l a o} (h : Reads l a o) : ∀ {d b o'}, o = .ok d → CommandFirst b →
    Reads (l + a.count '\n') b o' → ∃ d', Refined d d' ∧ Reads l (a ++ b) (o'.before d') := by
  induction h with
  | nil =>
    intro d b o' he _ hr
    injection he with he; subst he
    refine ⟨[], .same, ?_⟩
    cases o' <;> simpa [Outcome.before] using hr
  | @text l t r o hne ht he _ ih =>
    intro d b o' ho hb hr
    obtain ⟨d', rfl, rfl⟩ := after_ok ho
    obtain ⟨d2, h1, h2⟩ := ih rfl hb (o' := o') (by rwa [Nat.add_assoc, ← List.count_append])
    refine ⟨_, h1.cons _, ?_⟩
    rw [before_cons, List.append_assoc]
    refine .text hne ht ?_ h2
    cases r with
    | nil => simpa using hb.textEnds
    | cons c r => intro c' r' he'; injection he' with e1 _; subst e1; exact he c r rfl
  | @scope l v a r i o hdn hbal h1 _ ih1 ih2 =>
    intro d b o' ho hb hr
    cases i with
    | error e => cases ho
    | ok inner =>
      obtain ⟨d', rfl, rfl⟩ := after_ok ho
      obtain ⟨d2, k1, k2⟩ := ih2 rfl hb (o' := o') (by
        have e2 : l + (v.opening :: (a ++ v.closing :: r)).count '\n' = l + a.count '\n' + r.count '\n' := by
          rw [List.count_cons_of_ne (opening_ne_nl v), List.count_append,
            List.count_cons_of_ne (closing_ne_nl v)]
          omega
        rwa [e2] at hr)
      refine ⟨_, k1.cons _, ?_⟩
      rw [before_cons]
      have e : v.opening :: (a ++ v.closing :: r) ++ b = v.opening :: (a ++ v.closing :: (r ++ b)) := by simp
      rw [e]
      exact Reads.scope (l := l) hdn hbal h1 k2
  | openScope => intro _ _ _ ho; cases ho
  | @symbol l c r o ha _ ih =>
    intro d b o' ho hb hr
    obtain ⟨d', rfl, rfl⟩ := after_ok ho
    obtain ⟨d2, k1, k2⟩ := ih rfl hb (o' := o') (by
      have e2 : l + ('\\' :: c :: r).count '\n' = l + [c].count '\n' + r.count '\n' := by
        rw [List.count_cons_of_ne (by decide), show c :: r = [c] ++ r from rfl, List.count_append]
        omega
      rwa [e2] at hr)
    refine ⟨_, k1.cons _, ?_⟩
    rw [before_cons]
    exact .symbol ha k2
  | @command l name w g k t o items hn hw hg ht h1 _ ih1 ih2 =>
    intro d b o' ho hb hr
    unfold commandOutcome at ho
    rcases argOutcome_error_or items with ⟨e, he⟩ | ⟨args, he⟩
    · rw [he] at ho; cases ho
    · rw [he] at ho
      obtain ⟨d', rfl, rfl⟩ := after_ok ho
      obtain ⟨d2, k1, k2⟩ := ih2 rfl hb (o' := o') (by
        have e2 : l + ('\\' :: (name ++ (w ++ (g ++ t)))).count '\n' = l + w.count '\n' + (k ++ t).count '\n' := by
          rw [List.count_cons_of_ne (by decide)]
          simp only [List.count_append]
          have h3 := newlines_label hn
          rw [newlines_eq_count] at h3
          have h4 := hg.newlines
          rw [newlines_eq_count, newlines_eq_count] at h4
          omega
        rwa [e2] at hr)
      refine ⟨_, k1.cons _, ?_⟩
      rw [before_cons]
      have e : '\\' :: (name ++ (w ++ (g ++ t))) ++ b = '\\' :: (name ++ (w ++ (g ++ (t ++ b)))) := by simp
      rw [e]
      have ht' : GoesOn (items.map (·.1)) g (t ++ b) := by
        rcases ht with ⟨c, r, rfl, h⟩ | ⟨c, r, rfl, h⟩
        · exact .inl ⟨c, r ++ b, rfl, h⟩
        · exact .inr ⟨c, r ++ b, rfl, h⟩
      rw [List.append_assoc] at k2
      have := Reads.command (l := l) hn hw hg ht' h1 k2
      unfold commandOutcome at this
      rw [he] at this
      exact this
  | @lastCommand l name w g k items hn hw hg h1 ih1 =>
    intro d b o' ho hb hr
    unfold commandOutcome at ho
    rcases argOutcome_error_or items with ⟨e, he⟩ | ⟨args, he⟩
    · rw [he] at ho; cases ho
    · rw [he] at ho
      simp only [Outcome.after] at ho
      injection ho with ho
      subst ho
      have e : '\\' :: (name ++ (w ++ g)) ++ b = '\\' :: (name ++ (w ++ (g ++ b))) := by simp
      have e2 : l + ('\\' :: (name ++ (w ++ g))).count '\n' = l + w.count '\n' + k.count '\n' := by
        rw [List.count_cons_of_ne (by decide)]
        simp only [List.count_append]
        have h3 := newlines_label hn
        rw [newlines_eq_count] at h3
        have h4 := hg.newlines
        rw [newlines_eq_count, newlines_eq_count] at h4
        omega
      rw [e2] at hr
      have ht' : GoesOn (items.map (·.1)) g b := .inl hb
      rw [e]
      by_cases hk : k = []
      · subst hk
        rw [if_pos rfl]
        refine ⟨_, .same, ?_⟩
        have := Reads.command (l := l) hn hw hg ht' h1 (o := o') (by simpa using hr)
        unfold commandOutcome at this
        rw [he] at this
        rw [before_cons]
        cases o' <;> simpa [Outcome.before] using this
      · rw [if_neg hk]
        refine ⟨[.mk l (.command (.mk name args)), .mk (l + w.count '\n') (.text k)],
          .blanks (init := [.mk l (.command (.mk name args))]) hg.blank, ?_⟩
        have := Reads.command (l := l) hn hw hg ht' h1 (.text hk (blank_text hg.blank) hb.textEnds hr)
        unfold commandOutcome at this
        rw [he] at this
        rw [before_cons, before_cons]
        cases o' <;> simpa [Outcome.before] using this
  | openArgument => intro _ _ _ ho; cases ho
  | closing => intro _ _ _ ho; cases ho

/-! ### the source without comments -/

/-- The normal form of the source with another line after it. -/
theorem keep_line (w : Str) : ∀ s : Str,
    (NoDangling (keepBackslashes s) → keepBackslashes (s ++ '\n' :: w) = keepBackslashes s ++ '\n' :: keepBackslashes w) ∧
    (NoDangling (keepFirstBackslash s) → keepFirstBackslash (s ++ '\n' :: w) = keepFirstBackslash s ++ '\n' :: keepBackslashes w) ∧
    (NoDangling ('\\' :: dropRestOfLine s) → dropRestOfLine (s ++ '\n' :: w) = dropRestOfLine s ++ '\n' :: keepBackslashes w) := by
  intro s
  generalize hn : s.length = n
  induction n using Nat.strongRecOn generalizing s with
  | _ n ih =>
    subst hn
    cases s with
    | nil =>
      refine ⟨fun _ => ?_, fun _ => ?_, fun h => ?_⟩
      · simp [keepBackslashes]
      · simp [keepFirstBackslash]
      · simp [dropRestOfLine, NoDangling] at h
    | cons c s =>
      obtain ⟨i1, i2, i3⟩ := ih s.length (by simp) s rfl
      refine ⟨fun h => ?_, fun h => ?_, fun h => ?_⟩
      · by_cases h1 : c = '%'
        · subst h1
          simp only [keepBackslashes] at h
          simpa [keepBackslashes] using i2 h
        · by_cases h2 : c = '\\'
          · subst h2
            cases s with
            | nil => simp [keepBackslashes, NoDangling] at h
            | cons d s =>
              obtain ⟨j1, _, _⟩ := ih s.length (by simp; omega) s rfl
              have h' : NoDangling (keepBackslashes s) := by simpa [keepBackslashes, NoDangling] using h
              simp [keepBackslashes, j1 h']
          · have e : ∀ r, keepBackslashes (c :: r) = c :: keepBackslashes r := by
              intro r; simp [keepBackslashes, h1, h2]
            rw [e, noDangling_cons h2] at h
            rw [List.cons_append, e, e, i1 h, List.cons_append]
      · by_cases h1 : c = '\n'
        · subst h1
          simp only [keepFirstBackslash] at h
          rw [noDangling_cons (by decide)] at h
          simp [keepFirstBackslash, i1 h]
        · by_cases h2 : c = '\\'
          · subst h2
            simp only [keepFirstBackslash] at h
            simpa [keepFirstBackslash] using i3 h
          · simp only [keepFirstBackslash, h1, h2] at h
            simpa [keepFirstBackslash, h1, h2] using i2 h
      · by_cases h1 : c = '\n'
        · subst h1
          simp only [dropRestOfLine, NoDangling] at h
          simp [dropRestOfLine, i1 h]
        · simp only [dropRestOfLine, h1] at h
          simpa [dropRestOfLine, h1] using i3 h

/-- Dropping comments keeps the line ends. -/
theorem keep_count : ∀ s : Str, (keepBackslashes s).count '\n' = s.count '\n' ∧ (keepFirstBackslash s).count '\n' = s.count '\n' ∧
    (dropRestOfLine s).count '\n' = s.count '\n' := by
  intro s
  generalize hn : s.length = n
  induction n using Nat.strongRecOn generalizing s with
  | _ n ih =>
    subst hn
    cases s with
    | nil => exact ⟨rfl, rfl, rfl⟩
    | cons c s =>
      obtain ⟨i1, i2, i3⟩ := ih s.length (by simp) s rfl
      refine ⟨?_, ?_, ?_⟩
      · by_cases h1 : c = '%'
        · subst h1; simpa [keepBackslashes] using i2
        · by_cases h2 : c = '\\'
          · subst h2
            cases s with
            | nil => rfl
            | cons d s =>
              obtain ⟨j1, _, _⟩ := ih s.length (by simp; omega) s rfl
              simp [keepBackslashes, List.count_cons, j1]
          · simp [keepBackslashes, h1, h2, List.count_cons, i1]
      · by_cases h1 : c = '\n'
        · subst h1; simp [keepFirstBackslash, i1]
        · by_cases h2 : c = '\\'
          · subst h2; simpa [keepFirstBackslash] using i3
          · simpa [keepFirstBackslash, h1, h2, List.count_cons] using i2
      · by_cases h1 : c = '\n'
        · subst h1; simp [dropRestOfLine, i1]
        · simpa [dropRestOfLine, h1, List.count_cons] using i3

/-! ### the delimiters -/

/-- The argument `{x}` of a delimiter. -/
def nameArg (x : Str) : List (Str × Scope) := [([], .mk [.mk 1 (.text x)] .curly)]

theorem name_facts {x : Str} (hx : Sanitised x) : (∀ c ∈ x, c ∉ ['\\', '%', '{', '[', '(']) ∧ '\\' ∉ x ∧ '{' ∉ x ∧ '}' ∉ x := by
  have h : ∀ c, Special c → c ∉ x := fun c hc hm => hx c hm hc
  refine ⟨fun c hc hm => hx c hc ?_, h _ (by decide), h _ (by decide), h _ (by decide)⟩
  simp only [List.mem_cons, List.not_mem_nil, or_false] at hm
  rcases hm with rfl | rfl | rfl | rfl | rfl <;> decide

theorem name_written {x : Str} (hx : Sanitised x) : Written ('{' :: (x ++ ['}'])) [⟨[], .curly, x⟩] := by
  obtain ⟨_, h0, h1, h2⟩ := name_facts hx
  have hb : ∀ {y : Str}, '\\' ∉ y → '{' ∉ y → '}' ∉ y → Balanced .curly 0 y := by
    intro y
    induction y with
    | nil => intro _ _ _; rfl
    | cons c y ih =>
      intro a0 a1 a2
      simp only [List.mem_cons, not_or] at a0 a1 a2
      have := ih a0.2 a1.2 a2.2
      have e1 : ¬ c = '\\' := fun e => a0.1 e.symm
      have e2 : ¬ c = '{' := fun e => a1.1 e.symm
      have e3 : ¬ c = '}' := fun e => a2.1 e.symm
      simp [Balanced, ScopeVariant.opening, ScopeVariant.closing, e1, e2, e3, this]
  have := Written.arg (g := []) (p := []) (b := []) (v := .curly) (a := x) (w := []) (args := []) .nil (.inl rfl)
    (noDangling_plain fun c hc e => h0 (e ▸ hc)) (hb h0 h1 h2) .none
  simpa [ScopeVariant.opening, ScopeVariant.closing] using this

theorem name_reads {x : Str} (hx : EnvironmentName x) : Reads 1 (dropBrackets .curly x) (.ok [.mk 1 (.text x)]) := by
  obtain ⟨f, h0, h1, h2⟩ := name_facts hx.2.1
  rw [drop_absent (v := .curly) h0 h1 h2]
  have := Reads.text (l := 1) (r := []) (o := .ok []) hx.1 f (fun c r e => by cases e) .nil
  simpa [Outcome.after] using this

theorem name_count {x : Str} (hx : EnvironmentName x) : ('{' :: (x ++ ['}'])).count '\n' = 0 := by
  rw [List.count_cons_of_ne (by decide), List.count_append, List.count_eq_zero.2 hx.2.2]; rfl

theorem begin_name : LetterName chars!"begin" := ⟨'b', _, rfl, by decide, by decide⟩
theorem end_name : LetterName chars!"end" := ⟨'e', _, rfl, by decide, by decide⟩

theorem end_reads {x : Str} (hx : EnvironmentName x) (l : Nat) :
    Reads l (chars!"\\end{" ++ (x ++ ['}'])) (.ok [.mk l (.command (.mk chars!"end" (nameArg x)))]) := by
  have := Reads.lastCommand (l := l) (name := chars!"end") (w := '{' :: (x ++ ['}'])) (g := []) (k := [])
    (items := [(⟨[], .curly, x⟩, .ok [.mk 1 (.text x)])]) end_name (name_written hx.2.1) .nil
    (fun y hy => by rcases List.mem_singleton.1 hy with rfl; exact name_reads hx)
  simpa [commandOutcome, argOutcome, Outcome.after, nameArg] using this

theorem begin_reads {x : Str} (hx : EnvironmentName x) {g t : Str} {o : Outcome} (hg : Blank g) (hne : g ≠ [])
    (ht : CommandFirst t ∨ ∃ c r, t = c :: r ∧ c ≠ '\\' ∧ isWhitespace c = false ∧ c ∉ ['{', '[', '('])
    (h : Reads 1 (g ++ t) o) :
    Reads 1 (chars!"\\begin{" ++ (x ++ ('}' :: (g ++ t)))) (o.after (.mk 1 (.command (.mk chars!"begin" (nameArg x))))) := by
  have gap : ∀ {g : Str}, Blank g → Gap g g := by
    intro g
    induction g with
    | nil => intro _; exact .nil
    | cons c g ih => intro h; exact .plain (h c (.head _)) (ih fun x hx => h x (.tail _ hx))
  have := Reads.command (l := 1) (name := chars!"begin") (w := '{' :: (x ++ ['}'])) (g := g) (k := g) (t := t) (o := o)
    (items := [(⟨[], .curly, x⟩, .ok [.mk 1 (.text x)])]) begin_name (name_written hx.2.1) (gap hg)
    (by
      rcases ht with ht | ⟨c, r, h1, h2, h3, h4⟩
      · exact .inl ht
      · exact .inr ⟨c, r, h1, h2, h3, h4, fun e => absurd e hne⟩)
    (fun y hy => by rcases List.mem_singleton.1 hy with rfl; exact name_reads hx)
    (by rw [name_count hx]; exact h)
  simpa [commandOutcome, argOutcome, nameArg] using this

theorem end_first (r : Str) : CommandFirst (chars!"\\end" ++ r) := ⟨'e', chars!"nd" ++ r, rfl, by decide, by decide⟩

theorem first_split (s : Str) : Blank s ∨ ∃ w c r, Blank w ∧ s = w ++ c :: r ∧ isWhitespace c = false := by
  induction s with
  | nil => exact .inl (fun c hc => by cases hc)
  | cons c s ih =>
    by_cases hc : isWhitespace c = true
    · rcases ih with h | ⟨w, c', r, h1, rfl, h2⟩
      · refine .inl fun x hx => ?_
        rcases List.mem_cons.1 hx with rfl | hx
        · exact hc
        · exact h x hx
      · refine .inr ⟨c :: w, c', r, fun x hx => ?_, rfl, h2⟩
        rcases List.mem_cons.1 hx with rfl | hx
        · exact hc
        · exact h1 x hx
    · exact .inr ⟨[], c, s, (fun x hx => by cases hx), rfl, by simpa using hc⟩

/-- The whole. -/
theorem reads_enclosed {x k : Str} {d : List Chunk} (hx : EnvironmentName x) (hk : NoDangling k)
    (hs : ∀ w c r, Blank w → k = w ++ c :: r → isWhitespace c = false →
      c ∉ ['{', '[', '('] ∧ ∀ c' r', c = '\\' → r = c' :: r' → c' ∉ ['{', '[', '('] ∧ isWhitespace c' = false)
    (h : Reads 1 ('\n' :: (k ++ ['\n'])) (.ok d)) :
    ∃ d', Refined d d' ∧ Reads 1 (chars!"\\begin{" ++ (x ++ ('}' :: ('\n' :: (k ++ ['\n']) ++ (chars!"\\end{" ++ (x ++ ['}']))))))
      (.ok (.mk 1 (.command (.mk chars!"begin" (nameArg x))) :: (d' ++ [.mk (k.count '\n' + 3) (.command (.mk chars!"end" (nameArg x)))]))) := by
  obtain ⟨d', h1, h2⟩ := h.append_command rfl (end_first ('{' :: (x ++ ['}']))) (end_reads hx _)
  refine ⟨d', h1, ?_⟩
  have e0 : 1 + ('\n' :: (k ++ ['\n'])).count '\n' = k.count '\n' + 3 := by simp; omega
  rw [e0] at h2
  have nl : ∀ {w}, Blank w → Blank ('\n' :: w) := by
    intro w hw c hc
    rcases List.mem_cons.1 hc with rfl | hc
    · decide
    · exact hw c hc
  have e1 : '\n' :: (k ++ ['\n']) ++ (chars!"\\end" ++ ('{' :: (x ++ ['}']))) = '\n' :: (k ++ ['\n']) ++ (chars!"\\end{" ++ (x ++ ['}'])) := by
    simp
  rw [e1] at h2
  rcases first_split k with hb | ⟨w, c, r, hw, rfl, hc⟩
  · have hb2 : Blank ('\n' :: (k ++ ['\n'])) := nl (by
      intro c hc
      rcases List.mem_append.1 hc with hc | hc
      · exact hb c hc
      · rw [List.mem_singleton.1 hc]; decide)
    have := begin_reads hx hb2 (by simp) (.inl (end_first ('{' :: (x ++ ['}'])))) h2
    simpa [Outcome.before, Outcome.after] using this
  · obtain ⟨n1, n2⟩ := hs w c r hw rfl hc
    have e2 : '\n' :: (w ++ c :: r ++ ['\n']) ++ (chars!"\\end{" ++ (x ++ ['}'])) =
        ('\n' :: w) ++ (c :: (r ++ (['\n'] ++ (chars!"\\end{" ++ (x ++ ['}']))))) := by simp
    rw [e2] at h2 ⊢
    have := begin_reads hx (nl hw) (by simp) (by
      by_cases hbs : c = '\\'
      · subst hbs
        left
        cases r with
        | nil =>
          exfalso
          have := (noDangling_left fun hh => by have := hw _ hh; revert this; decide).1 hk
          exact this
        | cons c' r' =>
          obtain ⟨m1, m2⟩ := n2 c' r' rfl rfl
          exact ⟨c', _, rfl, m2, m1⟩
      · exact .inr ⟨c, _, rfl, hbs, hc, n1⟩) h2
    simpa [Outcome.before, Outcome.after] using this

theorem Blanked.refined {w d1 d2 d'} (h : Blanked w d1 d2) (hr : Refined d2 d') : Blanked w d1 d' := by
  generalize he : d2 = e at hr
  cases hr with
  | same => subst he; exact h
  | @blanks init l k hk =>
    cases h with
    | added hn =>
      obtain ⟨e1, e2⟩ := List.append_inj' he rfl
      subst e1
      simp only [List.cons.injEq, Chunk.mk.injEq, ChunkVariant.text.injEq, and_true] at e2
      rw [← e2.2]
      exact .added hn
    | longer =>
      obtain ⟨e1, e2⟩ := List.append_inj' he rfl
      subst e1
      simp only [List.cons.injEq, Chunk.mk.injEq, ChunkVariant.text.injEq, and_true] at e2
      rw [← e2.2] at hk ⊢
      exact .blanks fun c hc => hk c (List.mem_append_left _ hc)
    | blanks hb =>
      obtain ⟨e1, e2⟩ := List.append_inj' he rfl
      subst e1
      simp only [List.cons.injEq, Chunk.mk.injEq, ChunkVariant.text.injEq, and_true] at e2
      rw [← e2.2]
      exact .blanks hb

theorem nl_blank : Blank ['\n'] := by unfold Blank; decide
theorem nl_final : FinalBlanks ['\n'] := ⟨[], rfl, fun c hc => by cases hc⟩

theorem endsClosed_nl {s : Str} (h : EndsClosed s) : EndsClosed ('\n' :: s) := by
  unfold EndsClosed at *
  have e : keepBackslashes ('\n' :: s) = '\n' :: keepBackslashes s := by simp [keepBackslashes]
  rwa [e, noDangling_cons (by decide)]

theorem normal_onLines {s : Str} (h : EndsClosed s) :
    dropDangling (keepBackslashes ('\n' :: s ++ ['\n'])) = '\n' :: (keepBackslashes s ++ ['\n']) := by
  have e : keepBackslashes ('\n' :: s ++ ['\n']) = '\n' :: (keepBackslashes s ++ ['\n']) := by
    have h2 := (keep_line [] s).1 h
    rw [List.cons_append]
    simp [keepBackslashes, h2]
  rw [e, dropDangling_self]
  rw [noDangling_cons (by decide)]
  exact noDangling_append h (noDangling_plain (by simp))

theorem normal_enclosed {x s : Str} (hx : EnvironmentName x) (h : EndsClosed s) :
    dropDangling (keepBackslashes (enclosed x s)) =
      chars!"\\begin{" ++ (x ++ ('}' :: ('\n' :: (keepBackslashes s ++ ['\n']) ++ (chars!"\\end{" ++ (x ++ ['}']))))) := by
  have plain : ∀ {y : Str}, (∀ c ∈ y, c ≠ '\\' ∧ c ≠ '%') → ∀ r, keepBackslashes (y ++ r) = y ++ keepBackslashes r := by
    intro y
    induction y with
    | nil => intro _ r; rfl
    | cons c y ih =>
      intro hy r
      obtain ⟨h1, h2⟩ := hy c (.head _)
      have := ih (fun z hz => hy z (.tail _ hz)) r
      simp [keepBackslashes, h1, h2, this]
  have hxp : ∀ c ∈ x, c ≠ '\\' ∧ c ≠ '%' := by
    intro c hc
    have := (name_facts hx.2.1).1 c hc
    simp only [List.mem_cons, not_or] at this
    exact ⟨this.1, this.2.1⟩
  have esc : ∀ c r, keepBackslashes ('\\' :: c :: r) = '\\' :: c :: keepBackslashes r := by
    intro c r; simp [keepBackslashes]
  have k0 : keepBackslashes (x ++ ['}']) = x ++ ['}'] := by rw [plain hxp]; simp [keepBackslashes]
  have k1 : keepBackslashes (chars!"\\end{" ++ (x ++ ['}'])) = chars!"\\end{" ++ (x ++ ['}']) := by
    rw [show chars!"\\end{" ++ (x ++ ['}']) = '\\' :: 'e' :: (chars!"nd{" ++ (x ++ ['}'])) from rfl, esc, plain (by decide), k0]
  have k2 := (keep_line (chars!"\\end{" ++ (x ++ ['}'])) s).1 h
  rw [k1] at k2
  have k3 : keepBackslashes (enclosed x s) =
      chars!"\\begin{" ++ (x ++ ('}' :: ('\n' :: (keepBackslashes s ++ ['\n']) ++ (chars!"\\end{" ++ (x ++ ['}']))))) := by
    unfold enclosed
    rw [show chars!"\\begin{" ++ (x ++ (chars!"}\n" ++ (s ++ (chars!"\n\\end{" ++ (x ++ chars!"}"))))) =
      '\\' :: 'b' :: (chars!"egin{" ++ (x ++ (chars!"}\n" ++ (s ++ '\n' :: (chars!"\\end{" ++ (x ++ ['}'])))))) from rfl]
    rw [esc, plain (by decide), plain hxp, plain (by decide), k2]
    simp
  rw [k3, dropDangling_self]
  have nx : NoDangling x := noDangling_plain fun c hc => (hxp c hc).1
  refine noDangling_append (by simp [NoDangling]) (noDangling_append nx ?_)
  rw [noDangling_cons (by decide), List.cons_append, noDangling_cons (by decide), List.append_assoc]
  refine noDangling_append h (noDangling_append (noDangling_plain (by simp)) ?_)
  exact noDangling_append (by simp [NoDangling]) (noDangling_append nx (noDangling_plain (by simp)))

/-- Enclosing, with the document between the line ends. -/
theorem fromStr_enclosed {x s : Str} {d2 : List Chunk} (hx : EnvironmentName x) (h1 : StartsClosed s) (h2 : EndsClosed s)
    (h : fromStr ('\n' :: s ++ ['\n']) = .ok d2) : ∃ d', Refined d2 d' ∧ fromStr (enclosed x s) =
      .ok (.mk 1 (.command (.mk chars!"begin" (nameArg x))) :: (d' ++ [.mk (s.count '\n' + 3) (.command (.mk chars!"end" (nameArg x)))])) := by
  have hr := (reads_any _ (.ok d2)).2 h
  rw [normal_onLines h2] at hr
  obtain ⟨d', k1, k2⟩ := reads_enclosed hx h2 h1 hr
  rw [← normal_enclosed hx h2, (keep_count s).1] at k2
  exact ⟨d', k1, (reads_any _ _).1 k2⟩

end LatexAst.Ast1
