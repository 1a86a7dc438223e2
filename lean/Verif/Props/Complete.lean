import Verif.Proofs.Complete2
import Verif.Proofs.Grown1
import Verif.Proofs.Grammar4
import Verif.Model.Eq1

/-!
# Unfinished sources (C99)
-/

namespace LatexAst
open Spec

namespace Ast1

theorem closers_clean {w : Str} (h : ∀ c ∈ w, c ∈ closers) : Clean w := by
  induction w with
  | nil => exact .nil
  | cons c r ih =>
    have hc := h c (by simp)
    have : c ≠ '%' ∧ c ≠ '\\' := by
      simp [closers] at hc
      rcases hc with rfl | rfl | rfl <;> decide
    exact (clean_char this.1 this.2).append (ih fun x hx => h x (List.mem_cons_of_mem _ hx))

theorem prefix_can {s t : Str} (h : SelfContained s) {d} (ok : fromStr (s ++ t) = .ok d) :
    Can s (dropDangling (keepBackslashes t)) := by
  have hr : Reads 1 _ (.ok d) := (reads_any (s ++ t) (.ok d)).2 ok
  rw [keep_append (self_clean s h)] at hr
  exact (hr.acc d rfl).can _ _ rfl h.2

/-- A source that some continuation makes acceptable is made acceptable by closing brackets alone, at most one for each
opening bracket in it. -/
theorem C99 (s t : Str) (h : SelfContained s) (d : Document) (ok : fromStr (s ++ t) = .ok d) :
    ∃ w, (∀ c ∈ w, c ∈ closers) ∧ w.length ≤ openers s ∧ ∃ d', fromStr (s ++ w) = .ok d' := by
  obtain ⟨⟨w, h1, h2, h3, _⟩, _⟩ := prefix_can h ok
  obtain ⟨d', hd⟩ := h3.reads 1
  exact ⟨w, h1, h2, d', (reads_iff ((self_clean s h).append (closers_clean h1)) (.ok d')).1 hd⟩

/-- The beginning of an acceptable source (any beginning, also one that stops inside a comment or right after a backslash)
is accepted, or has an unclosed scope or argument. -/
theorem C99_prefix (s t : Str) (d : Document) (ok : fromStr (s ++ t) = .ok d) :
    (∃ d', fromStr s = .ok d') ∨
    ∃ e v, fromStr s = .error (.err e) ∧ (e.type = .unclosedScope v ∨ e.type = .unclosedArgument v) := by
  have hr : Reads 1 _ (.ok d) := (reads_any (s ++ t) (.ok d)).2 ok
  obtain ⟨u, hu⟩ := (normal_prefix t s).1
  rw [hu] at hr
  obtain ⟨_, h2⟩ := (hr.acc d rfl).can _ _ rfl (clean_noDangling (keep_clean s).1)
  obtain ⟨o, ho, hm⟩ := h2 1
  have e := (reads_any s o).1 ho
  cases o with
  | ok d' => exact .inl ⟨d', e⟩
  | error x =>
    obtain ⟨v, hv⟩ := hm x rfl
    exact .inr ⟨x, v, e, hv⟩

/-- An unexpected closing bracket is final: whatever is written after it, the source is refused. -/
theorem C99_final (s : Str) (e : Error) (v : ScopeVariant) (he : fromStr s = .error (.err e))
    (hv : e.type = .unexpectedClosing v) (t : Str) : ∃ e', fromStr (s ++ t) = .error e' := by
  rcases hr : fromStr (s ++ t) with e' | d
  · exact ⟨e', rfl⟩
  · rcases C99_prefix s t d hr with ⟨d', h1⟩ | ⟨e', v', h1, h2⟩
    · rw [he] at h1; cases h1
    · rw [he] at h1; cases h1
      rcases h2 with h2 | h2 <;> rw [hv] at h2 <;> cases h2

theorem C99_example :
    SelfContained chars!"a \\b{x (y\\{ " ∧ openers chars!"a \\b{x (y\\{ " = 3 ∧
    (fromStr (chars!"a \\b{x (y\\{ " ++ chars!"\\c[u] ) z} w")).map List.length = .ok 3 ∧
    (fromStr (chars!"a \\b{x (y\\{ " ++ chars!")}")).map List.length = .ok 2 ∧
    fromStr (chars!"a \\b{x (y\\{ " ++ chars!"})") = .error (.err ⟨1, .unexpectedClosing .round⟩) ∧
    SelfContained chars!"a\n\\b]" ∧ fromStr chars!"a\n\\b]" = .error (.err ⟨2, .unexpectedClosing .square⟩) := by
  refine ⟨⟨by decide +kernel, by simp [NoDangling]⟩, by decide +kernel, by decide +kernel, by decide +kernel,
    by decide +kernel, ⟨by decide +kernel, by simp [NoDangling]⟩, by decide +kernel⟩

/-- An unclosed scope, on the other hand, may or may not be repairable: what it contains so far is only looked at once it is
closed. `{\b]` is past repair. -/
theorem C99_doomed : fromStr chars!"{\\b]" = .error (.err ⟨1, .unclosedScope .curly⟩) ∧
    ∀ t d, fromStr (chars!"{\\b]" ++ t) ≠ .ok d := by
  refine ⟨by decide +kernel, fun t d h => ?_⟩
  obtain ⟨w, h1, h2, d', h3⟩ := C99 _ t ⟨by decide +kernel, by simp [NoDangling]⟩ d h
  have h2' : w.length ≤ 1 := h2
  rcases w with _ | ⟨c, _ | ⟨c', w⟩⟩
  · have : fromStr (chars!"{\\b]" ++ []) = .error (.err ⟨1, .unclosedScope .curly⟩) := by decide +kernel
    rw [this] at h3; cases h3
  · have hc := h1 c (by simp)
    simp only [closers, List.mem_cons, List.not_mem_nil, or_false] at hc
    have : ∃ e, fromStr (chars!"{\\b]" ++ [c]) = .error e := by
      rcases hc with rfl | rfl | rfl
      · exact ⟨.err ⟨1, .unexpectedClosing .square⟩, by decide +kernel⟩
      · exact ⟨.err ⟨1, .unclosedScope .curly⟩, by decide +kernel⟩
      · exact ⟨.err ⟨1, .unclosedScope .curly⟩, by decide +kernel⟩
    obtain ⟨e, he⟩ := this
    rw [he] at h3; cases h3
  · simp at h2'

end Ast1

end LatexAst
