import Verif.Proofs.Nest1

/-!
# What printing does to brackets

`Near p s`: `p` is `s` without some characters and with some round and square brackets made curly. A printed
document is near its source.
-/

namespace LatexAst.Ast1
open Spec

/-- The bracket was made curly. -/
def Curled (x y : Char) : Prop := (x = '{' ∧ y ∈ ['[', '(']) ∨ (x = '}' ∧ y ∈ [']', ')'])

inductive Near : Str → Str → Prop
  | nil : Near [] []
  | keep {c p s} : Near p s → Near (c :: p) (c :: s)
  | drop {c p s} : Near p s → Near p (c :: s)
  | curl {x y p s} : Curled x y → Near p s → Near (x :: p) (y :: s)

theorem Near.refl : ∀ s, Near s s
  | [] => .nil
  | _ :: s => .keep (refl s)

theorem Near.append {a b a' b'} (h : Near a b) (h' : Near a' b') : Near (a ++ a') (b ++ b') := by
  induction h with
  | nil => exact h'
  | keep _ ih => exact .keep ih
  | drop _ ih => exact .drop ih
  | curl hc _ ih => exact .curl hc ih

theorem Near.of_sublist {a b : Str} (h : a.Sublist b) : Near a b := by
  induction h with
  | slnil => exact .nil
  | cons _ _ ih => exact .drop ih
  | cons_cons _ _ ih => exact .keep ih

theorem Near.sub_right {a b c : Str} (h : Near a b) (h' : b.Sublist c) : Near a c := by
  induction h' generalizing a with
  | slnil => exact h
  | cons _ _ ih => exact .drop (ih h)
  | cons_cons x _ ih =>
    cases h with
    | keep h => exact .keep (ih h)
    | drop h => exact .drop (ih h)
    | curl hc h => exact .curl hc (ih h)

theorem Curled.trans_left {x y z} (h : Curled x y) (h' : Curled y z) : False := by
  unfold Curled at *; grind

theorem Near.trans {a b c : Str} (h : Near a b) (h' : Near b c) : Near a c := by
  induction h' generalizing a with
  | nil => exact h
  | drop _ ih => exact .drop (ih h)
  | keep _ ih =>
    cases h with
    | keep h => exact .keep (ih h)
    | drop h => exact .drop (ih h)
    | curl hc h => exact .curl hc (ih h)
  | curl hc' _ ih =>
    cases h with
    | keep h => exact .curl hc' (ih h)
    | drop h => exact .drop (ih h)
    | curl hc h => exact (hc.trans_left hc').elim

theorem Near.prefix {a b : Str} : Near a (a ++ b) := .of_sublist (List.sublist_append_left _ _)

theorem near_opening (v : ScopeVariant) {p s} (h : Near p s) : Near ('{' :: p) (v.opening :: s) := by
  cases v
  · exact .keep h
  · exact .curl (by simp [Curled, ScopeVariant.opening]) h
  · exact .curl (by simp [Curled, ScopeVariant.opening]) h

theorem near_closing (v : ScopeVariant) {p s} (h : Near p s) : Near ('}' :: p) (v.closing :: s) := by
  cases v
  · exact .keep h
  · exact .curl (by simp [Curled, ScopeVariant.closing]) h
  · exact .curl (by simp [Curled, ScopeVariant.closing]) h

/-! ## Printed documents -/

def RecNear (rec : Str → Res (List Chunk)) : Prop :=
  ∀ a cs, Clean a → rec a = .ok cs → Near (displayChunks cs) a

theorem near_args {rec sc args} (hrec : RecNear rec) (hcl : ∀ a v p, (a, v, p) ∈ sc → Clean a)
    (h : evalArgs rec sc = .ok args) : Near (displayArgs args) (shownSc sc) := by
  induction sc generalizing args with
  | nil => simp only [evalArgs] at h; injection h with h; subst h; exact .nil
  | cons x sc ih =>
    obtain ⟨a, v, q⟩ := x
    simp only [evalArgs] at h
    rcases hr : rec a with g | cs
    · rw [hr] at h; cases h
    · rw [hr] at h; simp only at h
      rcases he : evalArgs rec sc with g | args'
      · rw [he] at h; cases h
      · rw [he] at h; injection h with h; subst h
        have h1 := hrec _ _ (hcl a v q (by simp)) hr
        have h2 := ih (fun a v p hm => hcl a v p (by simp [hm])) he
        simp only [displayArgs, Scope.display, shownSc, List.cons_append,
          List.append_assoc, List.nil_append]
        exact Near.append (Near.refl _) (.keep (Near.append h1 (.keep h2)))

theorem TStep.near {rec b bl ln t new b' bl'} (hrec : RecNear rec) (hb : b.CleanContents)
    (h : TStep rec bl ln b t new b' bl') :
    Near (displayChunks new ++ b'.shown) (b.shown ++ t.src) := by
  have hcl : ∀ {l sc d tr}, b = .command l sc d tr → ∀ a v p, (a, v, p) ∈ sc → Clean a := by
    intro l sc d tr he a v p hm
    exact hb a (by subst he; simp only [Buffer.contents, List.mem_map]; exact ⟨_, hm, rfl⟩)
  have hcmd : ∀ {l sc tr args}, b = .command l sc 0 tr → evalArgs rec sc = .ok args →
      Near (Chunk.display (.mk bl (.command (.mk l args)))) ('\\' :: (l ++ shownSc sc)) := by
    intro l sc tr args he ha
    simp only [Chunk.display, ChunkVariant.display, Command.display]
    exact .keep (.append (.refl _) (near_args hrec (hcl he) ha))
  cases h
  case tEsc a c =>
    rw [displayChunks_append, display_textC, List.append_assoc, shown_start]
    simp [Buffer.shown, Tok.src, Near.refl]
  case tOpen a v => simp [display_textC, Buffer.shown, Tok.src, Near.refl]
  case tChar => simp [displayChunks_nil, Buffer.shown, Tok.src, Near.refl]
  case sEsc => simp [displayChunks_nil, Buffer.shown, Tok.src, Near.refl]
  case sOpen => simp [displayChunks_nil, Buffer.shown, Tok.src, Near.refl]
  case sClose => simp [displayChunks_nil, Buffer.shown, Tok.src, Near.refl]
  case sChar => simp [displayChunks_nil, Buffer.shown, Tok.src, Near.refl]
  case sEnd a v inner h =>
    have := hrec a inner (hb a (by simp [Buffer.contents])) h
    simp only [displayChunks_cons, displayChunks_nil, Chunk.display, ChunkVariant.display,
      Scope.display, Buffer.shown, Tok.src, List.append_nil, List.cons_append,
      Bool.false_eq_true, if_false]
    exact near_opening v (.append this (near_closing v .nil))
  case cOpen l sc tr e v =>
    simp only [displayChunks_nil, Buffer.shown, Tok.src, List.nil_append, List.dropLast_concat,
      List.getLast?_append, List.getLast?_singleton, Option.some_or,
      List.cons_append, List.append_assoc]
    refine .keep (.append (.refl _) (.append (.refl _) (.append (.refl _) ?_)))
    cases e
    · exact .refl _
    · exact .drop (.refl _)
  case cWs l sc tr e c h hw =>
    simp only [displayChunks_nil, Buffer.shown, Tok.src, List.nil_append,
      List.cons_append, List.append_assoc]
    refine .keep (.append (.refl _) (.append (.refl _) (.append (.refl _) ?_)))
    cases e
    · exact .refl _
    · exact .drop (.refl _)
  case cEsc l sc tr c args h hw ha =>
    rw [displayChunks_append, displayChunks_append, display_textC, List.append_assoc,
      List.append_assoc, shown_start, displayChunks_cons, displayChunks_nil, List.append_nil]
    have := hcmd rfl ha
    have e : (Buffer.command l sc 0 tr).shown ++ Tok.src (true, c) =
      ('\\' :: (l ++ shownSc sc)) ++ (tr ++ ['\\', c]) := by simp [Buffer.shown, Tok.src]
    rw [e]
    exact .append this (.refl _)
  case cTrail l sc tr c args h hw ht ha =>
    rw [displayChunks_cons, displayChunks_nil, List.append_nil]
    have := hcmd rfl ha
    have e : (Buffer.command l sc 0 tr).shown ++ Tok.src (false, c) =
      ('\\' :: (l ++ shownSc sc)) ++ (tr ++ [c]) := by simp [Buffer.shown, Tok.src]
    rw [e]
    exact .append this (.refl _)
  case cLabel => simp [displayChunks_nil, Buffer.shown, Tok.src, shownSc, Near.refl]
  case cNext l sc c args h hw hc hs ha =>
    rw [displayChunks_cons, displayChunks_nil, List.append_nil]
    have := hcmd rfl ha
    have e : (Buffer.command l sc 0 []).shown ++ Tok.src (false, c) =
      ('\\' :: (l ++ shownSc sc)) ++ [c] := by simp [Buffer.shown, Tok.src]
    rw [e]
    exact .append this (.refl _)
  case aEsc => simp [displayChunks_nil, Buffer.shown, Tok.src, Near.refl]
  case aOpen =>
    simp only [displayChunks_nil, List.nil_append, Buffer.shown]
    exact .prefix
  case aClose l sc a v p d =>
    simp only [displayChunks_nil, List.nil_append]
    cases d with
    | zero =>
      have e : (Buffer.command l (sc ++ [(a, v, p)]) 1 []).shown ++ Tok.src (false, v.closing) =
          (Buffer.command l (sc ++ [(a, v, p)]) 0 []).shown := by
        simp [Buffer.shown, Tok.src, shownSc_append, shownSc]
      rw [e]; exact .refl _
    | succ d =>
      simp only [Buffer.shown]
      exact .prefix
  case aChar => simp [displayChunks_nil, Buffer.shown, Tok.src, Near.refl]

theorem TRun.near {rec ts b bl ln cs} (hrec : RecNear rec) (h : TRun rec ts b bl ln cs)
    (hts : ∀ t ∈ ts, Tok.Ok t) (hb : b.CleanContents) :
    Near (displayChunks cs) (b.shown ++ unlex ts) := by
  induction h with
  | nil hi h =>
    cases h with
    | text a => simp [display_textC, Buffer.shown, unlex, Near.refl]
    | command l sc tr args ha =>
      have := near_args hrec (fun a v p hm =>
        hb a (by simp only [Buffer.contents, List.mem_map]; exact ⟨_, hm, rfl⟩)) ha
      simp only [displayChunks_append, display_textC, displayChunks_cons, displayChunks_nil,
        Chunk.display, ChunkVariant.display, Command.display, Buffer.shown, unlex, List.map_nil,
        List.flatten_nil, List.append_nil, List.cons_append, List.append_assoc]
      exact .keep (.append (.refl _) (.append this (.refl _)))
  | @cons t ts b bl ln new b' bl' rest hi h hr ih =>
    have h1 := h.near hrec hb
    have h2 := ih (fun t ht => hts t (by simp [ht])) (h.clean (hts _ (by simp)) hb)
    rw [displayChunks_append]
    refine (Near.append (Near.refl _) h2).trans ?_
    have e : unlex (t :: ts) = t.src ++ unlex ts := by simp [unlex]
    rw [e, ← List.append_assoc, ← List.append_assoc]
    exact .append h1 (.refl _)

theorem parseFuel_near (n : Nat) {s d} (h : parseFuel n s = .ok d) :
    Near (displayChunks d) (unlex (lex false false s)) := by
  induction n generalizing s d with
  | zero => simp [parseFuel] at h
  | succ n ih =>
    have := (parseFuel_ok h).near
      (fun a cs hc ha => by have := ih ha; rwa [unlex_lex_clean hc] at this)
      (lex_ok _ _ _) (by intro a ha; cases ha)
    simpa [Buffer.shown] using this

theorem fromStr_near {s d} (h : fromStr s = .ok d) : Near (displayChunks d) s := by
  have h2 := unlex_lex_sub s false false
  simp at h2
  exact (parseFuel_near _ h).sub_right h2

/-! ## When nothing is lost -/

theorem Near.length_le {p s} (h : Near p s) : p.length ≤ s.length := by
  induction h with
  | nil => simp
  | keep _ ih => simpa using ih
  | drop _ ih => simp; omega
  | curl _ _ ih => simpa using ih

def roundSquare (s : Str) : Nat := s.countP fun c => decide (c ∈ ['[', ']', '(', ')'])

theorem roundSquare_eq (s : Str) : roundSquare s = s.count '[' + s.count ']' + s.count '(' + s.count ')' := by
  unfold roundSquare
  induction s with
  | nil => rfl
  | cons c s ih =>
    simp only [List.countP_cons, List.count_cons, ih, beq_iff_eq]
    by_cases h1 : c = '['
    · subst h1; simp; omega
    by_cases h2 : c = ']'
    · subst h2; simp; omega
    by_cases h3 : c = '('
    · subst h3; simp; omega
    by_cases h4 : c = ')'
    · subst h4; simp; omega
    simp [h1, h2, h3, h4]

theorem Near.roundSquare_le {p s} (h : Near p s) : roundSquare p ≤ roundSquare s := by
  unfold roundSquare
  induction h with
  | nil => simp
  | keep _ ih => simp only [List.countP_cons]; omega
  | drop _ ih => simp only [List.countP_cons]; omega
  | @curl x y p s hc _ ih =>
    simp only [List.countP_cons]
    have : ¬ (decide (x ∈ ['[', ']', '(', ')']) = true) := by
      intro h; simp only [decide_eq_true_eq] at h; unfold Curled at hc; grind
    rw [if_neg this]; omega

/-- Same length, and no fewer round and square brackets: it is the same. -/
theorem Near.eq {p s} (h : Near p s) (hl : s.length ≤ p.length) (hr : roundSquare s ≤ roundSquare p) : p = s := by
  induction h with
  | nil => rfl
  | @keep c p s h ih =>
    unfold roundSquare at hr ih
    simp only [List.countP_cons, List.length_cons] at hr hl
    rw [ih (by omega) (by omega)]
  | drop h ih => have := h.length_le; simp at hl; omega
  | @curl x y p s hc h ih =>
    have h1 := h.roundSquare_le
    unfold roundSquare at hr h1
    simp only [List.countP_cons] at hr
    have h2 : ¬ (decide (x ∈ ['[', ']', '(', ')']) = true) := by
      intro h; simp only [decide_eq_true_eq] at h; unfold Curled at hc; grind
    have h3 : decide (y ∈ ['[', ']', '(', ')']) = true := by
      simp only [decide_eq_true_eq]; unfold Curled at hc; grind
    rw [if_neg h2, if_pos h3] at hr
    omega

end LatexAst.Ast1
