import Verif.Proofs.Grown2
import Verif.Proofs.MathsFuel
import Verif.Proofs.MathsTotal
import Verif.Proofs.Document3

/-!
# Typing on, stage 3
-/

namespace LatexAst.Ast3
open Spec

variable {rec : List Ast2.Chunk → Res (List Chunk)}

/-! ## The maths of one section -/

/-- Accepted, or only unfinished. -/
def Soft {α : Type} (r : Res α) : Prop := (∃ x, r = .ok x) ∨ ∃ l, r = .error (.err ⟨l, .unclosedMaths⟩)

theorem finishMaths_fine (s : MState) : Soft (finishMaths s) := by
  unfold finishMaths
  split
  · exact .inr ⟨_, rfl⟩
  · exact .inl ⟨_, rfl⟩

theorem text_fine {s s' : MState} {l a b} (h : stepMaths rec s (.mk l (.text (a ++ b))) = .ok s') :
    ∃ s1, stepMaths rec s (.mk l (.text a)) = .ok s1 := by
  simp only [stepMaths] at h ⊢
  split
  · exact ⟨_, rfl⟩
  · rename_i hm
    rw [if_neg hm] at h
    unfold stepMathsText at h ⊢
    rw [runText_append] at h
    cases hr : runText rec a ⟨s, l, [], l⟩ with
    | error f => rw [hr] at h; cases h
    | ok t => exact ⟨_, rfl⟩

theorem runText_fine : ∀ {k : Str}, '$' ∉ k → ∀ t : TState, ∃ t', runText rec k t = .ok t' := by
  intro k
  induction k with
  | nil => intro _ t; exact ⟨t, rfl⟩
  | cons c k ih =>
    intro h t
    simp only [List.mem_cons, not_or] at h
    simp only [runText, stepChar]
    rw [if_neg (fun e => h.1 e.symm)]
    exact ih h.2 _

theorem blank_fine {k : Str} (h : ∀ x ∈ k, isWhitespace x = true) (s : MState) (l : Nat) :
    ∃ s1, stepMaths rec s (.mk l (.text k)) = .ok s1 := by
  simp only [stepMaths]
  split
  · exact ⟨_, rfl⟩
  · unfold stepMathsText
    obtain ⟨t, ht⟩ := runText_fine (rec := rec) (k := k) (fun hm => absurd (h _ hm) (by decide)) ⟨s, l, [], l⟩
    rw [ht]; exact ⟨_, rfl⟩

theorem tryArgs_fine {a b : List (Str × Ast2.Scope)} {y} (h : tryArgs rec (a ++ b) = .ok y) : ∃ x, tryArgs rec a = .ok x := by
  induction a generalizing y with
  | nil => exact ⟨[], rfl⟩
  | cons p a ih =>
    obtain ⟨p, sc⟩ := p
    simp only [List.cons_append, tryArgs] at h ⊢
    cases h1 : tryScope rec sc with
    | error f => rw [h1] at h; cases h
    | ok s =>
      rw [h1] at h; simp only at h ⊢
      cases h2 : tryArgs rec (a ++ b) with
      | error f => rw [h2] at h; cases h
      | ok w =>
        obtain ⟨x, hx⟩ := ih h2
        exact ⟨_, by rw [hx]⟩

theorem stepMaths_command (s : MState) (l : Nat) (name : Str) (args : List (Str × Ast2.Scope)) :
    stepMaths rec s (.mk l (.command (.mk name args))) =
      if s.mode = .none ∧ (name = chars!")" ∨ name = chars!"]") then
        fail l .unexpectedMathsEnd
      else if name = chars!"(" ∧ s.mode = .none then
        .ok { s with mode := .singleDollar .brackets, bufferLine := l, depth := 1 }
      else if name = chars!"[" ∧ s.mode = .none then
        .ok { s with mode := .doubleDollar .brackets, bufferLine := l, depth := 1 }
      else if name = chars!"(" ∧ s.mode = .singleDollar .brackets then
        .ok { s with depth := s.depth + 1 }
      else if name = chars!"[" ∧ s.mode = .doubleDollar .brackets then
        .ok { s with depth := s.depth + 1 }
      else if name = chars!")" ∧ s.mode = .singleDollar .brackets ∧ s.depth = 1 then
        closeBrackets rec s .inline
      else if name = chars!"]" ∧ s.mode = .doubleDollar .brackets ∧ s.depth = 1 then
        closeBrackets rec s .outline
      else if name = chars!")" ∧ s.mode = .singleDollar .brackets then
        match checkedSub s.depth 1 with
        | .error p => .error p
        | .ok d => .ok { s with depth := d }
      else if name = chars!"]" ∧ s.mode = .doubleDollar .brackets then
        match checkedSub s.depth 1 with
        | .error p => .error p
        | .ok d => .ok { s with depth := d }
      else if s.mode = .none then
        match tryCommand rec (.mk name args) with
        | .error f => .error f
        | .ok c => .ok { s with out := s.out ++ [.mk l (.command c)] }
      else .ok (s.pushBuffer l (.command (.mk name args))) := rfl

theorem fine_if {α β : Type} {c : Prop} [Decidable c] {a a' b b' : Except α β} {x : β}
    (h : (if c then a' else b') = .ok x) (ha : a' = .ok x → ∃ y, a = .ok y) (hb : b' = .ok x → ∃ y, b = .ok y) :
    ∃ y, (if c then a else b) = .ok y := by
  by_cases hc : c
  · rw [if_pos hc] at h ⊢; exact ha h
  · rw [if_neg hc] at h ⊢; exact hb h

theorem command_fine {s s' : MState} {l name args extra}
    (h : stepMaths rec s (.mk l (.command (.mk name (args ++ extra)))) = .ok s') :
    ∃ s1, stepMaths rec s (.mk l (.command (.mk name args))) = .ok s1 := by
  rw [stepMaths_command] at h ⊢
  refine fine_if h (fun h => ⟨_, h⟩) (fun h => ?_)
  refine fine_if h (fun h => ⟨_, h⟩) (fun h => ?_)
  refine fine_if h (fun h => ⟨_, h⟩) (fun h => ?_)
  refine fine_if h (fun h => ⟨_, h⟩) (fun h => ?_)
  refine fine_if h (fun h => ⟨_, h⟩) (fun h => ?_)
  refine fine_if h (fun h => ⟨_, h⟩) (fun h => ?_)
  refine fine_if h (fun h => ⟨_, h⟩) (fun h => ?_)
  refine fine_if h (fun h => ⟨_, h⟩) (fun h => ?_)
  refine fine_if h (fun h => ⟨_, h⟩) (fun h => ?_)
  refine fine_if h (fun h => ?_) (fun _ => ⟨_, rfl⟩)
  simp only [tryCommand] at h ⊢
  cases h1 : tryArgs rec (args ++ extra) with
  | error f => rw [h1] at h; cases h
  | ok w =>
    obtain ⟨x, hx⟩ := tryArgs_fine h1
    rw [hx]; exact ⟨_, rfl⟩

theorem bare_fine {name : Str} (h : StartsWithLetter name) (s : MState) (l : Nat) :
    ∃ s1, stepMaths rec s (.mk l (.command (.mk name []))) = .ok s1 := by
  obtain ⟨c, r, rfl, hc⟩ := h
  have ne : ∀ x : Char, isAsciiAlphabetic x = false → c :: r ≠ [x] := by
    intro x hx e; injection e with e _; subst e; rw [hc] at hx; cases hx
  have n1 := ne ')' (by decide)
  have n2 := ne ']' (by decide)
  have n3 := ne '(' (by decide)
  have n4 := ne '[' (by decide)
  rw [stepMaths_command]
  rw [if_neg (fun e => e.2.elim n1 n2), if_neg (fun e => n3 e.1), if_neg (fun e => n4 e.1), if_neg (fun e => n3 e.1),
    if_neg (fun e => n4 e.1), if_neg (fun e => n1 e.1), if_neg (fun e => n2 e.1), if_neg (fun e => n1 e.1), if_neg (fun e => n2 e.1)]
  split
  · exact ⟨_, rfl⟩
  · exact ⟨_, rfl⟩

/-- A tail that cannot fail where the section `t` after `p` does not. -/
def Follows (q t : List Ast2.Chunk) : Prop :=
  ∀ (s : MState), (∃ s', runMaths mathsFromChunks t s = .ok s') → ∃ s', runMaths mathsFromChunks q s = .ok s'

theorem maths_follows {p q t : List Ast2.Chunk} (h : Follows q t) {x} (hx : mathsFromChunks (p ++ t) = .ok x) :
    Soft (mathsFromChunks (p ++ q)) := by
  rw [mathsFromChunks_eq, mathsLevel, runMaths_append] at hx ⊢
  cases hp : runMaths mathsFromChunks p MState.init with
  | error f => rw [hp] at hx; cases hx
  | ok s =>
    rw [hp] at hx
    simp only at hx ⊢
    cases ht : runMaths mathsFromChunks t s with
    | error f => rw [ht] at hx; cases hx
    | ok s' =>
      obtain ⟨s1, h1⟩ := h s ⟨s', ht⟩
      rw [h1]; exact finishMaths_fine _

theorem follows_nil {t} : Follows [] t := fun s _ => ⟨s, rfl⟩

theorem follows_one {c c' : Ast2.Chunk} {t} (h : ∀ s s', stepMaths mathsFromChunks s c' = .ok s' →
    ∃ s1, stepMaths mathsFromChunks s c = .ok s1) : Follows [c] (c' :: t) := by
  intro s ⟨s', hs⟩
  simp only [runMaths] at hs ⊢
  cases hc : stepMaths mathsFromChunks s c' with
  | error f => rw [hc] at hs; cases hs
  | ok s2 =>
    obtain ⟨s1, h1⟩ := h _ _ hc
    exact ⟨s1, by rw [h1]⟩

theorem follows_blank {q t : List Ast2.Chunk} (h : Follows q t) {k : Str} (hk : ∀ x ∈ k, isWhitespace x = true) (l : Nat) :
    Follows (q ++ [.mk l (.text k)]) t := by
  intro s hs
  obtain ⟨s1, h1⟩ := h s hs
  rw [runMaths_append, h1]
  obtain ⟨s2, h2⟩ := blank_fine (rec := mathsFromChunks) hk s1 l
  exact ⟨s2, by simp only [runMaths, h2]⟩

/-! ## The document -/

theorem push_mono (d : DState) (l v) : ∃ p t, (d.push l v).preamable = d.preamable ++ p ∧ (d.push l v).trailing = d.trailing ++ t ∧
    (d.inPreamable = true → p = [.mk l v] ∧ t = []) ∧ (d.inPreamable = false → p = [] ∧ t = [.mk l v]) ∧
    (d.push l v).inPreamable = d.inPreamable := by
  unfold DState.push
  cases h : d.inPreamable
  · exact ⟨[], [_], by simp, rfl, by simp, by simp, by simp⟩
  · exact ⟨[_], [], rfl, by simp, by simp, by simp, by simp⟩

/-- A chunk that is not the document environment goes to its section. -/
theorem step_doc_push {d d' : DState} {l v} (h : stepDocument d (.mk l v) = .ok d')
    (hv : ∀ e, v = .environment e → e.label ≠ chars!"document") :
    d'.preamable = (d.push l v).preamable ∧ d'.trailing = (d.push l v).trailing ∧ d'.inPreamable = d.inPreamable := by
  have plain : d' = d.push l v → d'.preamable = (d.push l v).preamable ∧ d'.trailing = (d.push l v).trailing ∧
      d'.inPreamable = d.inPreamable := by
    rintro rfl; exact ⟨rfl, rfl, by unfold DState.push; split <;> rfl⟩
  cases v with
  | text t => simp only [stepDocument] at h; injection h with h; exact plain h.symm
  | scope sc => simp only [stepDocument] at h; injection h with h; exact plain h.symm
  | environment e =>
    simp only [stepDocument] at h
    rw [if_neg (hv e rfl)] at h; injection h with h; exact plain h.symm
  | command c =>
    simp only [stepDocument] at h
    split at h
    · split at h
      · cases h
      · split at h
        · cases h
        · injection h with h; subst h
          unfold DState.push; simp only; split <;> exact ⟨rfl, rfl, rfl⟩
    · injection h with h; exact plain h.symm

theorem step_doc_mono {d d' : DState} {c} (h : stepDocument d c = .ok d') :
    ∃ p t, d'.preamable = d.preamable ++ p ∧ d'.trailing = d.trailing ++ t ∧ (d.inPreamable = false → p = [] ∧ d'.inPreamable = false) := by
  obtain ⟨l, v⟩ := c
  by_cases hv : ∀ e, v = .environment e → e.label ≠ chars!"document"
  · obtain ⟨h1, h2, h3⟩ := step_doc_push h hv
    obtain ⟨p, t, h4, h5, h6, h7, h8⟩ := push_mono d l v
    exact ⟨p, t, h1.trans h4, h2.trans h5, fun hi => ⟨(h7 hi).1, h3.trans hi⟩⟩
  · simp only [Classical.not_forall, Classical.not_not] at hv
    obtain ⟨e, rfl, he⟩ := hv
    simp only [stepDocument] at h
    rw [if_pos he] at h
    split at h
    · cases h
    · injection h with h; subst h; exact ⟨[], [], by simp, by simp, fun _ => ⟨rfl, rfl⟩⟩

/-- What is read later goes after what was read before. -/
theorem doc_mono : ∀ {r} {d d' : DState}, runDocument r d = .ok d' →
    ∃ p t, d'.preamable = d.preamable ++ p ∧ d'.trailing = d.trailing ++ t ∧ (d.inPreamable = false → p = [] ∧ d'.inPreamable = false) := by
  intro r
  induction r with
  | nil => intro d d' h; simp only [runDocument] at h; injection h with h; subst h; exact ⟨[], [], by simp, by simp, fun h => ⟨rfl, h⟩⟩
  | cons c r ih =>
    intro d d' h
    simp only [runDocument] at h
    cases hc : stepDocument d c with
    | error f => rw [hc] at h; cases h
    | ok d1 =>
      rw [hc] at h
      obtain ⟨p, t, h1, h2, h3⟩ := ih h
      obtain ⟨p', t', h4, h5, h6⟩ := step_doc_mono hc
      refine ⟨p' ++ p, t' ++ t, by rw [h1, h4, List.append_assoc], by rw [h2, h5, List.append_assoc], fun hi => ?_⟩
      obtain ⟨rfl, h7⟩ := h6 hi
      exact ⟨by simp [(h3 h7).1], (h3 h7).2⟩

/-- Accepted, or only unfinished, or a second `\documentclass` that may still become another command. -/
def NotYet {α : Type} (r : Res α) : Prop :=
  (∃ x, r = .ok x) ∨ ∃ l, r = .error (.err ⟨l, .unclosedMaths⟩) ∨ r = .error (.err ⟨l, .doubleDocumentClass⟩)

/-- The tail `q` of a document does not fail in more ways than the tail `t`. -/
def Tail (q t : List Ast2.Chunk) : Prop :=
  ∀ s s' : DState, runDocument t s = .ok s' →
    (∃ l, runDocument q s = .error (.err ⟨l, .doubleDocumentClass⟩)) ∨
    ∃ s1 p1 t1 p2 t2, runDocument q s = .ok s1 ∧ s1.preamable = s.preamable ++ p1 ∧ s1.trailing = s.trailing ++ t1 ∧
      s'.preamable = s.preamable ++ p2 ∧ s'.trailing = s.trailing ++ t2 ∧ Follows p1 p2 ∧ Follows t1 t2

theorem tail_unfinished {cs q t : List Ast2.Chunk} (h : Tail q t) {x} (hx : tryFrom (cs ++ t) = .ok x) :
    NotYet (tryFrom (cs ++ q)) := by
  unfold tryFrom at hx ⊢
  rw [runDocument_append] at hx ⊢
  cases hr : runDocument cs DState.init with
  | error f => rw [hr] at hx; cases hx
  | ok s =>
    rw [hr] at hx
    simp only at hx ⊢
    cases ht : runDocument t s with
    | error f => rw [ht] at hx; cases hx
    | ok s' =>
      rw [ht] at hx
      simp only at hx
      rcases h s s' ht with ⟨l, h1⟩ | ⟨s1, p1, t1, p2, t2, h1, h2, h3, h4, h5, h6, h7⟩
      · rw [h1]; exact .inr ⟨l, .inr rfl⟩
      rw [h1]
      simp only
      cases hp : mathsFromChunks s'.preamable with
      | error f => rw [hp] at hx; cases hx
      | ok pre =>
        rw [hp] at hx
        simp only at hx
        cases hq : mathsFromChunks s'.trailing with
        | error f => rw [hq] at hx; cases hx
        | ok tr =>
          have f1 := maths_follows h6 (h4 ▸ hp)
          have f2 := maths_follows h7 (h5 ▸ hq)
          rw [← h2] at f1
          rw [← h3] at f2
          rcases f1 with ⟨y, e1⟩ | ⟨l, e1⟩
          · rw [e1]
            simp only
            rcases f2 with ⟨z, e2⟩ | ⟨l, e2⟩
            · rw [e2]; exact .inl ⟨_, rfl⟩
            · rw [e2]; exact .inr ⟨l, .inl rfl⟩
          · rw [e1]; exact .inr ⟨l, .inl rfl⟩

theorem tail_nil {t} : Tail [] t := by
  intro s s' h
  obtain ⟨p, u, h1, h2, _⟩ := doc_mono h
  exact .inr ⟨s, [], [], p, u, rfl, by simp, by simp, h1, h2, follows_nil, follows_nil⟩

/-- A chunk that never fails. -/
theorem tail_free {l v} (hd : ∀ s : DState, (∃ l', stepDocument s (.mk l v) = .error (.err ⟨l', .doubleDocumentClass⟩)) ∨
      ∃ s1, stepDocument s (.mk l v) = .ok s1) (hv : ∀ e, v = .environment e → e.label ≠ chars!"document")
    (hf : ∀ t, Follows [.mk l v] t) (t) : Tail [.mk l v] t := by
  intro s s' h
  rcases hd s with ⟨l', h1⟩ | ⟨s1, h1⟩
  · exact .inl ⟨l', by simp only [runDocument, h1]⟩
  obtain ⟨p, u, h2, h3, _⟩ := doc_mono h
  obtain ⟨h4, h5, _⟩ := step_doc_push h1 hv
  obtain ⟨p', u', h6, h7, h8, h9, _⟩ := push_mono s l v
  refine .inr ⟨s1, p', u', p, u, by simp only [runDocument, h1], h4.trans h6, h5.trans h7, h2, h3, ?_, ?_⟩
  · cases hi : s.inPreamable
    · rw [(h9 hi).1]; exact follows_nil
    · rw [(h8 hi).1]; exact hf _
  · cases hi : s.inPreamable
    · rw [(h9 hi).2]; exact hf _
    · rw [(h8 hi).2]; exact follows_nil

/-- A chunk that fails only where the chunk in its place does. -/
theorem tail_one {l v l' v'} (hd : ∀ s s' : DState, stepDocument s (.mk l' v') = .ok s' → ∃ s1, stepDocument s (.mk l v) = .ok s1)
    (hv : ∀ e, v = .environment e → e.label ≠ chars!"document") (hv' : ∀ e, v' = .environment e → e.label ≠ chars!"document")
    (hf : ∀ t, Follows [.mk l v] (.mk l' v' :: t)) (t) : Tail [.mk l v] (.mk l' v' :: t) := by
  intro s s' h
  simp only [runDocument] at h
  cases hc : stepDocument s (.mk l' v') with
  | error f => rw [hc] at h; cases h
  | ok s2 =>
    rw [hc] at h
    simp only at h
    obtain ⟨s1, h1⟩ := hd _ _ hc
    obtain ⟨p, u, h2, h3, h3'⟩ := doc_mono h
    obtain ⟨h4, h5, _⟩ := step_doc_push h1 hv
    obtain ⟨p1, u1, h6, h7, h8, h9, _⟩ := push_mono s l v
    obtain ⟨k4, k5, _⟩ := step_doc_push hc hv'
    obtain ⟨p2, u2, k6, k7, k8, k9, _⟩ := push_mono s l' v'
    refine .inr ⟨s1, p1, u1, p2 ++ p, u2 ++ u, by simp only [runDocument, h1], h4.trans h6, h5.trans h7,
      by rw [h2, k4, k6, List.append_assoc], by rw [h3, k5, k7, List.append_assoc], ?_, ?_⟩
    · cases hi : s.inPreamable
      · rw [(h9 hi).1]; exact follows_nil
      · rw [(h8 hi).1, (k8 hi).1]; exact hf _
    · cases hi : s.inPreamable
      · rw [(h9 hi).2, (k9 hi).2]; exact hf _
      · rw [(h8 hi).2]; exact follows_nil

theorem tail_blank {q t} (h : Tail q t) {k : Str} (hk : ∀ x ∈ k, isWhitespace x = true) (l : Nat) :
    Tail (q ++ [.mk l (.text k)]) t := by
  intro s s' hs
  rcases h s s' hs with ⟨l', h1⟩ | ⟨s1, p1, t1, p2, t2, h1, h2, h3, h4, h5, h6, h7⟩
  · exact .inl ⟨l', by rw [runDocument_append, h1]⟩
  obtain ⟨p', u', k1, k2, k3, k4, _⟩ := push_mono s1 l (.text k)
  refine .inr ⟨s1.push l (.text k), p1 ++ p', t1 ++ u', p2, t2, ?_, ?_, ?_, h4, h5, ?_, ?_⟩
  · rw [runDocument_append, h1]; rfl
  · rw [k1, h2, List.append_assoc]
  · rw [k2, h3, List.append_assoc]
  · cases hi : s1.inPreamable
    · rw [(k4 hi).1]; simpa using h6
    · rw [(k3 hi).1]; exact follows_blank h6 hk l
  · cases hi : s1.inPreamable
    · rw [(k4 hi).2]; exact follows_blank h7 hk l
    · rw [(k3 hi).2]; simpa using h7

theorem classArgs_fine {line a b} {d d' : Document} (h : docClassArgs line (a ++ b) d = .ok d') : ∃ d1, docClassArgs line a d = .ok d1 := by
  by_cases hl : (d.documentclass.toList ++ classNames (a ++ b)).length ≤ 1
  · rw [classNames_append] at hl
    exact ⟨_, docClassArgs_ok (by simp only [List.length_append] at hl ⊢; omega)⟩
  · rw [docClassArgs_error hl] at h; cases h

theorem command_step {s s' : DState} {l name args extra}
    (h : stepDocument s (.mk l (.command (.mk name (args ++ extra)))) = .ok s') :
    ∃ s1, stepDocument s (.mk l (.command (.mk name args))) = .ok s1 := by
  simp only [stepDocument, Ast2.Command.label, Ast2.Command.arguments] at h ⊢
  refine fine_if h (fun h => ?_) (fun _ => ⟨_, rfl⟩)
  refine fine_if h (fun h => ⟨_, h⟩) (fun h => ?_)
  cases hd : docClassArgs l (args ++ extra) s.construct with
  | error f => rw [hd] at h; cases h
  | ok d =>
    obtain ⟨d1, h1⟩ := classArgs_fine hd
    rw [h1]; exact ⟨_, rfl⟩

theorem bare_step (s : DState) (l name) :
    (∃ l', stepDocument s (.mk l (.command (.mk name []))) = .error (.err ⟨l', .doubleDocumentClass⟩)) ∨
      ∃ s1, stepDocument s (.mk l (.command (.mk name []))) = .ok s1 := by
  simp only [stepDocument, Ast2.Command.label, Ast2.Command.arguments, docClassArgs]
  split
  · split
    · exact .inl ⟨l, rfl⟩
    · exact .inr ⟨_, rfl⟩
  · exact .inr ⟨_, rfl⟩

theorem bare_follows {name : Str} (h : StartsWithLetter name) (l t) : Follows [.mk l (.command (.mk name []))] t := by
  intro s _
  obtain ⟨s1, h1⟩ := bare_fine (rec := mathsFromChunks) h s l
  exact ⟨s1, by simp only [runMaths, h1]⟩

theorem command_tail (l name args extra t) :
    Tail [.mk l (.command (.mk name args))] (.mk l (.command (.mk name (args ++ extra))) :: t) :=
  tail_one (fun _ _ h => command_step h) (by simp) (by simp) (fun _ => follows_one fun _ _ h => command_fine h) t

/-- The beginning of an accepted document is accepted or only unfinished. -/
theorem grown_unfinished {ds dt : Ast2.Document} (h : Ast2.Grown ds dt) {x} (hx : tryFrom dt = .ok x) : NotYet (tryFrom ds) := by
  cases h with
  | @kept cs more => have := tail_unfinished (tail_nil (t := more)) hx; rwa [List.append_nil] at this
  | text =>
    exact tail_unfinished (tail_one (fun _ _ _ => ⟨_, rfl⟩) (by simp) (by simp)
      (fun _ => follows_one fun _ _ h => text_fine h) _) hx
  | command => exact tail_unfinished (command_tail _ _ _ _ _) hx
  | name hn => exact tail_unfinished (tail_free (fun s => bare_step s _ _) (by simp) (fun t => bare_follows hn _ t) _) hx
  | begun hn _ _ => exact tail_unfinished (tail_free (fun s => bare_step s _ _) (by simp) (fun t => bare_follows hn _ t) _) hx
  | blanks hk => exact tail_unfinished (tail_blank (q := []) tail_nil hk _) hx
  | argument hk => exact tail_unfinished (tail_blank (command_tail _ _ _ _ _) hk _) hx

end LatexAst.Ast3
