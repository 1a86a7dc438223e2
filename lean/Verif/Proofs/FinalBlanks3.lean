import Verif.Proofs.FinalBlanks2
import Verif.Proofs.MathsConv
import Verif.Proofs.MathsTotal
import Verif.Proofs.Document3
import Verif.Proofs.Paragraph

/-!
# Blanks at the end of a source, stage 3
-/

namespace LatexAst.Ast3
open Spec

variable {rec : List Ast2.Chunk → Res (List Chunk)}

/-- The loop variables with blanks at the end. -/
def MEnds (w : Str) (s s' : MState) : Prop :=
  s'.mode = s.mode ∧ s'.bufferLine = s.bufferLine ∧ (s.mode = .none → displayChunks s'.out = displayChunks s.out ++ w)

/-- Blanks at the end of a section. -/
inductive EndsD (w : Str) : Res (List Chunk) → Res (List Chunk) → Prop
  | error {f} : EndsD w (.error f) (.error f)
  | ok {a b} : displayChunks b = displayChunks a ++ w → EndsD w (.ok a) (.ok b)

theorem finish_ends {w s s'} (h : MEnds w s s') : EndsD w (finishMaths s) (finishMaths s') := by
  obtain ⟨h1, h2, h3⟩ := h
  unfold finishMaths
  rw [h1, h2]
  by_cases hm : s.mode = .none
  · rw [if_neg (by simp [hm]), if_neg (by simp [hm])]
    exact .ok (by rw [display_paragraphs, display_paragraphs, h3 hm])
  · rw [if_pos hm, if_pos hm]; exact .error

theorem blank_dollar {w : Str} (h : Blank w) : '$' ∉ w := fun hh => by have := h _ hh; revert this; decide

theorem display_text (out : List Chunk) (l t) : displayChunks (out ++ [.mk l (.text t)]) = displayChunks out ++ t := by
  rw [displayChunks_append]
  simp [displayChunks, Chunk.display, ChunkVariant.display]

theorem pushStr_display (t : TState) : displayChunks t.pushStr.m.out = displayChunks t.m.out ++ t.textBuffer ∧
    t.pushStr.m.mode = t.m.mode ∧ t.pushStr.m.bufferLine = t.m.bufferLine := by
  unfold TState.pushStr
  by_cases h : t.textBuffer.isEmpty = true
  · rw [if_pos h]
    have : t.textBuffer = [] := by simpa using h
    simp [this]
  · rw [if_neg h]
    exact ⟨display_text _ _ _, rfl, rfl⟩

/-- A blank text. -/
theorem step_blank {w : Str} (hw : Blank w) (s : MState) (l : Nat) :
    ∃ s', stepMaths rec s (.mk l (.text w)) = .ok s' ∧ MEnds w s s' := by
  simp only [stepMaths]
  split
  · rename_i h
    refine ⟨_, rfl, rfl, rfl, fun hm => ?_⟩
    rw [hm] at h; rcases h with h | h <;> cases h
  · simp only [stepMathsText, runText_plain (blank_dollar hw)]
    obtain ⟨h1, h2, h3⟩ := pushStr_display ⟨s, l + w.count '\n', [] ++ w, l⟩
    exact ⟨_, rfl, h2, h3, fun _ => by rw [h1]; simp⟩

/-- A longer text. -/
theorem step_longer {w : Str} (hw : Blank w) (s : MState) (l : Nat) (t : Str) :
    (∃ f, stepMaths rec s (.mk l (.text t)) = .error f ∧ stepMaths rec s (.mk l (.text (t ++ w))) = .error f) ∨
    ∃ s1 s2, stepMaths rec s (.mk l (.text t)) = .ok s1 ∧ stepMaths rec s (.mk l (.text (t ++ w))) = .ok s2 ∧ MEnds w s1 s2 := by
  simp only [stepMaths]
  split
  · rename_i h
    refine .inr ⟨_, _, rfl, rfl, rfl, rfl, fun hm => ?_⟩
    rw [show (s.pushBuffer l (.text t)).mode = s.mode from rfl] at hm
    rw [hm] at h; rcases h with h | h <;> cases h
  · simp only [stepMathsText, runText_append]
    cases runText rec t ⟨s, l, [], l⟩ with
    | error f => exact .inl ⟨f, rfl, rfl⟩
    | ok T =>
      obtain ⟨m, cur, tb, tbl⟩ := T
      simp only [runText_plain (blank_dollar hw)]
      obtain ⟨h1, h2, h3⟩ := pushStr_display ⟨m, cur, tb, tbl⟩
      obtain ⟨k1, k2, k3⟩ := pushStr_display ⟨m, cur + w.count '\n', tb ++ w, tbl⟩
      exact .inr ⟨_, _, rfl, rfl, by rw [h2, k2], by rw [h3, k3], fun _ => by rw [h1, k1]; simp⟩

/-- Blanks at the end of the chunks. -/
inductive EndsC (w : Str) : List Ast2.Chunk → List Ast2.Chunk → Prop
  | added {cs l} : EndsC w cs (cs ++ [.mk l (.text w)])
  | longer {cs l t} : EndsC w (cs ++ [.mk l (.text t)]) (cs ++ [.mk l (.text (t ++ w))])
  | blanks {cs l k l'} : Blank k → EndsC w (cs ++ [.mk l (.text k)]) (cs ++ [.mk l' (.text (k ++ w))])

theorem endsC_of {w e e'} (h : Ast2.Ends w (.ok e) (.ok e')) : EndsC w e e' := by
  cases h with
  | added => exact .added
  | longer => exact .longer
  | blanks hk => exact .blanks hk

theorem maths_ends {w e e'} (hw : Blank w) (h : EndsC w e e') : EndsD w (mathsFromChunks e) (mathsFromChunks e') := by
  rw [mathsFromChunks_eq e, mathsFromChunks_eq e', mathsLevel, mathsLevel]
  cases h with
  | @added _ l =>
    rw [runMaths_append]
    cases runMaths mathsFromChunks e MState.init with
    | error f => exact .error
    | ok s =>
      obtain ⟨s', h1, h2⟩ := step_blank (rec := mathsFromChunks) hw s l
      simp only [runMaths, h1]
      exact finish_ends h2
  | @longer cs l t =>
    rw [runMaths_append, runMaths_append]
    cases runMaths mathsFromChunks cs MState.init with
    | error f => exact .error
    | ok s =>
      rcases step_longer (rec := mathsFromChunks) hw s l t with ⟨f, h1, h2⟩ | ⟨s1, s2, h1, h2, h3⟩
      · simp only [runMaths, h1, h2]; exact .error
      · simp only [runMaths, h1, h2]; exact finish_ends h3
  | @blanks cs l k l' hk =>
    rw [runMaths_append, runMaths_append]
    cases runMaths mathsFromChunks cs MState.init with
    | error f => exact .error
    | ok s =>
      have hkw : Blank (k ++ w) := by
        intro c hc
        rcases List.mem_append.1 hc with hc | hc
        · exact hk c hc
        · exact hw c hc
      obtain ⟨s1, h1, m1, b1, d1⟩ := step_blank (rec := mathsFromChunks) hk s l
      obtain ⟨s2, h2, m2, b2, d2⟩ := step_blank (rec := mathsFromChunks) hkw s l'
      simp only [runMaths, h1, h2]
      refine finish_ends ⟨by rw [m1, m2], by rw [b1, b2], fun hm => ?_⟩
      rw [m1] at hm
      rw [d1 hm, d2 hm, List.append_assoc]

/-- The section into which a last text goes. -/
theorem run_last (s : DState) (l t) : runDocument [.mk l (.text t)] s =
    .ok (if s.inPreamable then { s with preamable := s.preamable ++ [.mk l (.text t)] } else { s with trailing := s.trailing ++ [.mk l (.text t)] }) := by
  simp [runDocument, stepDocument, DState.push]

/-- The end of the conversion. -/
def sections (s : DState) : Res Document :=
  match mathsFromChunks s.preamable with
  | .error f => .error f
  | .ok pre =>
    match mathsFromChunks s.trailing with
    | .error f => .error f
    | .ok tr => .ok { s.construct with preamable := paragraphs pre, trailing := paragraphs tr }

theorem tryFrom_sections (d : Ast2.Document) : tryFrom d = match runDocument d DState.init with
    | .error f => .error f
    | .ok s => sections s := rfl

/-- The results agree. -/
inductive Ends (w : Str) : Res Document → Res Document → Prop
  | error {f} : Ends w (.error f) (.error f)
  | ok {d d'} : Blanked w d d' → Ends w (.ok d) (.ok d')

theorem sections_ends {w a b} (hw : Blank w) {s : DState} (h : EndsC w a b) :
    Ends w (sections { s with preamable := a }) (sections { s with preamable := b }) ∧
    Ends w (sections { s with trailing := a }) (sections { s with trailing := b }) := by
  have h := maths_ends hw h
  refine ⟨?_, ?_⟩
  · simp only [sections]
    generalize mathsFromChunks a = x at h
    generalize mathsFromChunks b = y at h
    cases h with
    | error => exact .error
    | ok hd =>
      simp only
      cases mathsFromChunks s.trailing with
      | error f => exact .error
      | ok tr => exact .ok ⟨_, .inl ⟨rfl, by simp only [display_paragraphs, hd]⟩⟩
  · simp only [sections]
    cases mathsFromChunks s.preamable with
    | error f => exact .error
    | ok pre =>
      simp only
      generalize mathsFromChunks a = x at h
      generalize mathsFromChunks b = y at h
      cases h with
      | error => exact .error
      | ok hd => exact .ok ⟨_, .inr ⟨rfl, by simp only [display_paragraphs, hd]⟩⟩

theorem tryFrom_ends {w e e'} (hw : Blank w) (h : EndsC w e e') : Ends w (tryFrom e) (tryFrom e') := by
  rw [tryFrom_sections, tryFrom_sections]
  cases h with
  | added =>
    rw [runDocument_append]
    cases runDocument e DState.init with
    | error f => exact .error
    | ok s =>
      simp only [run_last]
      by_cases hp : s.inPreamable = true
      · rw [if_pos hp]; exact (sections_ends hw .added).1
      · rw [if_neg hp]; exact (sections_ends hw .added).2
  | longer =>
    rw [runDocument_append, runDocument_append]
    cases runDocument _ DState.init with
    | error f => exact .error
    | ok s =>
      simp only [run_last]
      by_cases hp : s.inPreamable = true
      · rw [if_pos hp, if_pos hp]; exact (sections_ends hw .longer).1
      · rw [if_neg hp, if_neg hp]; exact (sections_ends hw .longer).2
  | blanks hk =>
    rw [runDocument_append, runDocument_append]
    cases runDocument _ DState.init with
    | error f => exact .error
    | ok s =>
      simp only [run_last]
      by_cases hp : s.inPreamable = true
      · rw [if_pos hp, if_pos hp]; exact (sections_ends hw (.blanks hk)).1
      · rw [if_neg hp, if_neg hp]; exact (sections_ends hw (.blanks hk)).2

end LatexAst.Ast3
