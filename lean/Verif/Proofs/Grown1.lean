import Verif.Spec.Grown
import Verif.Proofs.Grammar3

/-!
# Typing on: what is read of the beginning of a source
-/

namespace LatexAst.Ast1
open Spec

variable {rec : Str → Res (List Chunk)}

theorem Grown.under {ds dt : List Chunk} (h : Grown ds dt) (p : List Chunk) : Grown (p ++ ds) (p ++ dt) := by
  cases h with
  | kept => rw [← List.append_assoc]; exact .kept
  | text => rw [← List.append_assoc, ← List.append_assoc]; exact .text
  | command => rw [← List.append_assoc, ← List.append_assoc]; exact .command
  | name h => rw [← List.append_assoc, ← List.append_assoc]; exact .name h
  | blanks h => rw [← List.append_assoc, ← List.append_assoc]; exact .blanks h
  | argument h => rw [← List.append_assoc, ← List.append_assoc]; exact .argument h

theorem evalArgs_split {a b : List ScopeBuf} {args} (h : evalArgs rec (a ++ b) = .ok args) :
    ∃ x y, args = x ++ y ∧ evalArgs rec a = .ok x ∧ evalArgs rec b = .ok y := by
  induction a generalizing args with
  | nil => exact ⟨[], args, rfl, rfl, h⟩
  | cons s a ih =>
    obtain ⟨c, v, p⟩ := s
    simp only [List.cons_append, evalArgs] at h ⊢
    rcases hr : rec c with f | cs
    · rw [hr] at h; cases h
    · rw [hr] at h; simp only at h
      rcases hs : evalArgs rec (a ++ b) with f | as
      · rw [hs] at h; cases h
      · rw [hs] at h; simp only at h; injection h with h; subst h
        obtain ⟨x, y, rfl, h1, h2⟩ := ih hs
        exact ⟨(p, .mk cs v) :: x, y, rfl, by simp [h1], h2⟩

theorem evalArgs_one {c v p args} (h : evalArgs rec [(c, v, p)] = .ok args) : ∃ sc, args = [(p, sc)] := by
  simp only [evalArgs] at h
  rcases hr : rec c with f | cs
  · rw [hr] at h; cases h
  · rw [hr] at h; simp only at h; injection h with h; exact ⟨_, h.symm⟩

/-- From a text buffer on. -/
theorem TRun.text_grows {ts b bl ln cs} (h : TRun rec ts b bl ln cs) : ∀ a, b = .text a →
    ∃ a' more, cs = textC (a ++ a') bl ++ more := by
  induction h with
  | nil hi h => intro a e; subst e; cases h; exact ⟨[], [], by simp⟩
  | cons hi h hr ih =>
    intro a e; subst e
    cases h with
    | tEsc => exact ⟨[], _, by simp [List.append_assoc]; rfl⟩
    | tOpen => exact ⟨[], _, by simp; rfl⟩
    | tChar a c h =>
      obtain ⟨a', more, e⟩ := ih _ rfl
      exact ⟨c :: a', more, by simp [e]⟩

/-- What a command buffer holding `name`, `sc` (of which `open_` is still open) and the blanks `tr` becomes. -/
inductive Became (rec : Str → Res (List Chunk)) (bl : Nat) (name : Str) (sc : List ScopeBuf) : Str → List Chunk → Prop
  | bare {args more} : evalArgs rec sc = .ok args → Became rec bl name sc [] (.mk bl (.command (.mk name args)) :: more)
  | blanks {args l k b more} : evalArgs rec sc = .ok args →
      Became rec bl name sc k (.mk bl (.command (.mk name args)) :: .mk l (.text (k ++ b)) :: more)
  | argument {args k b s extra more} : evalArgs rec sc = .ok args →
      Became rec bl name sc k (.mk bl (.command (.mk name (args ++ (k ++ b, s) :: extra))) :: more)
  | name {suffix args more} : sc = [] → Became rec bl name sc [] (.mk bl (.command (.mk (name ++ suffix) args)) :: more)

/-- From a command buffer on. -/
theorem TRun.command_grows {ts b bl ln cs} (h : TRun rec ts b bl ln cs) :
    (∀ name sc tr, b = .command name sc 0 tr → Became rec bl name sc tr cs) ∧
    (∀ name sc a v p d, b = .command name (sc ++ [(a, v, p)]) (d + 1) [] →
      ∃ args s extra more, evalArgs rec sc = .ok args ∧ cs = .mk bl (.command (.mk name (args ++ (p, s) :: extra))) :: more) := by
  induction h with
  | nil hi h =>
    refine ⟨?_, ?_⟩
    · intro name sc tr e; subst e
      cases h with
      | command l sc tr args ha =>
        by_cases ht : tr = []
        · subst ht; exact .bare ha
        · simp only [textC, if_neg ht]
          have := fun bl ln => Became.blanks (rec := rec) (bl := bl) (name := name) (sc := sc) (k := tr) (b := []) (l := ln) (more := []) ha
          simpa using this _ _
    · intro name sc a v p d e; subst e; cases h
  | cons hi h hr ih =>
    refine ⟨?_, ?_⟩
    · intro name sc tr e; subst e
      cases h with
      | cOpen l sc tr e v =>
        obtain ⟨args, s, extra, more, h1, h2⟩ := ih.2 _ _ _ _ _ _ rfl
        subst h2
        have := fun bl => Became.argument (rec := rec) (bl := bl) (name := name) (sc := sc) (k := tr) (b := []) (s := s) (extra := extra)
          (more := more) h1
        simpa using this _
      | cWs l sc tr e c h hw =>
        have := ih.1 _ _ _ rfl
        simp only [List.nil_append]
        generalize hk : tr ++ [c] = k at this
        cases this with
        | bare h => simp at hk
        | blanks h => subst hk; simp only [List.append_assoc]; exact .blanks h
        | argument h => subst hk; simp only [List.append_assoc]; exact .argument h
        | name h => simp at hk
      | cEsc l sc tr c args h hw ha =>
        by_cases ht : tr = []
        · subst ht; exact .bare ha
        · simp only [textC, if_neg ht, List.cons_append, List.nil_append]
          have := fun bl l more => Became.blanks (rec := rec) (bl := bl) (name := name) (sc := sc) (k := tr) (b := [])
            (l := l) (more := more) ha
          simpa using this _ _ _
      | cTrail l sc tr c args h hw ht ha =>
        obtain ⟨a', more, e⟩ := hr.text_grows _ rfl
        subst e
        simp only [textC]
        rw [if_neg (by simp)]
        simp only [List.append_assoc, List.cons_append, List.nil_append]
        exact .blanks ha
      | cLabel l c h hw hc =>
        have := ih.1 _ _ _ rfl
        simp only [List.nil_append]
        generalize hk : ([] : Str) = k at this
        cases this with
        | bare h =>  exact .name rfl
        | blanks h => subst hk; exact .name rfl
        | argument h => subst hk; exact .name rfl
        | name h => simp only [List.append_assoc]; exact .name rfl
      | cNext l sc c args h hw hc hs ha => exact .bare ha
    · intro name sc a v p d e
      cases h with
      | aEsc l sc' a' v' p' d' c => 
        simp at e; obtain ⟨rfl, ⟨rfl, rfl, rfl, rfl⟩, rfl⟩ := e
        exact ih.2 _ _ _ _ _ _ rfl
      | aOpen l sc' a' v' p' d' =>
        simp at e; obtain ⟨rfl, ⟨rfl, rfl, rfl, rfl⟩, rfl⟩ := e
        exact ih.2 _ _ _ _ _ (_ + 1) rfl
      | aClose l sc' a' v' p' d' =>
        simp at e; obtain ⟨rfl, ⟨rfl, rfl, rfl, rfl⟩, rfl⟩ := e
        cases d' with
        | succ d => exact ih.2 _ _ _ _ _ _ rfl
        | zero =>
          have := ih.1 _ _ _ rfl
          generalize hk : ([] : Str) = k at this
          simp only [List.nil_append]
          cases this with
          | bare h =>
            obtain ⟨x, y, rfl, h1, h2⟩ := evalArgs_split h
            obtain ⟨s, rfl⟩ := evalArgs_one h2
            exact ⟨_, s, [], _, h1, rfl⟩
          | blanks h =>
            obtain ⟨x, y, rfl, h1, h2⟩ := evalArgs_split h
            obtain ⟨s, rfl⟩ := evalArgs_one h2
            exact ⟨_, s, [], _, h1, rfl⟩
          | argument h =>
            obtain ⟨x, y, rfl, h1, h2⟩ := evalArgs_split h
            obtain ⟨s, rfl⟩ := evalArgs_one h2
            rw [List.append_assoc]; exact ⟨_, s, _, _, h1, rfl⟩
          | name h => simp at h
      | aChar l sc' a' v' p' d' c =>
        simp at e; obtain ⟨rfl, ⟨rfl, rfl, rfl, rfl⟩, rfl⟩ := e
        exact ih.2 _ _ _ _ _ _ rfl
      | _ => simp at e

/-- The blanks held by a command buffer are blank, and its name starts with a letter. -/
def BlankTail : Buffer → Prop
  | .command name _ 0 tr => StartsWithLetter name ∧ ∀ x ∈ tr, isWhitespace x = true
  | .command name _ (_ + 1) tr => StartsWithLetter name ∧ tr = []
  | _ => True

theorem TStep.blankTail {b bl ln t new b' bl'} (h : TStep rec bl ln b t new b' bl') (hb : BlankTail b) : BlankTail b' := by
  cases h with
  | tEsc a c =>
    unfold startB; split
    · rename_i h; exact ⟨⟨c, [], rfl, h⟩, by simp⟩
    · trivial
  | cEsc l sc tr c =>
    unfold startB; split
    · rename_i h; exact ⟨⟨c, [], rfl, h⟩, by simp⟩
    · trivial
  | cWs l sc tr e c h hw =>
    refine ⟨hb.1, ?_⟩
    intro x hx
    rcases List.mem_append.1 hx with h | h
    · exact hb.2 x h
    · simp at h; subst h; exact hw
  | cLabel l c =>
    obtain ⟨⟨x, r, rfl, hx⟩, _⟩ := hb
    exact ⟨⟨x, r ++ [c], rfl, hx⟩, by simp⟩
  | aClose l sc a v p d => cases d <;> simp_all [BlankTail]
  | _ => simp_all [BlankTail]

/-- A beginning and the whole. -/
theorem trun_grown : ∀ {ts us b bl ln ds dt}, trun rec ts b bl ln = .ok ds → trun rec (ts ++ us) b bl ln = .ok dt → Inv b bl ln →
    BlankTail b → Grown ds dt := by
  intro ts
  induction ts with
  | nil =>
    intro us b bl ln ds dt h hu hi hb
    replace hu := trun_ok hi hu
    have hf := tfinish_ok h
    clear h
    cases hf with
    | text a =>
      obtain ⟨a', more, rfl⟩ := hu.text_grows _ rfl
      by_cases ha : a = []
      · subst ha; simp only [textC, if_true]; exact .kept (cs := [])
      · simp only [textC, if_neg ha]
        rw [if_neg (by simp [ha])]
        exact .text (cs := [])
    | command l sc tr args ha =>
      have := (hu.command_grows).1 _ _ _ rfl
      cases this with
      | bare h =>
        rw [ha] at h; injection h with h; subst h
        exact .kept
      | blanks h =>
        rw [ha] at h; injection h with h; subst h
        by_cases ht : tr = []
        · subst ht; exact .kept
        · simp only [textC, if_neg ht]; exact .blanks (cs := []) hb.2
      | argument h =>
        rw [ha] at h; injection h with h; subst h
        by_cases ht : tr = []
        · subst ht; exact .command (cs := [])
        · simp only [textC, if_neg ht]; exact .argument (cs := []) hb.2
      | name h =>
        subst h
        simp only [evalArgs] at ha; injection ha with ha; subst ha
        exact .name (cs := []) hb.1
  | cons t ts ih =>
    intro us b bl ln ds dt h hu hi hb
    simp only [List.cons_append, trun] at h hu
    rcases ht : tstep rec b bl (lnAfter ln t) t with f | ⟨new, b', bl'⟩
    · rw [ht] at h; cases h
    · rw [ht] at h hu
      simp only at h hu
      have hs := tstep_ok hi.ctl ht
      rcases hr : trun rec ts b' bl' (lnAfter ln t) with f | rest
      · rw [hr] at h; cases h
      · rcases hr2 : trun rec (ts ++ us) b' bl' (lnAfter ln t) with f | rest2
        · rw [hr2] at hu; cases hu
        · rw [hr] at h; rw [hr2] at hu
          injection h with h; injection hu with hu; subst h hu
          exact (ih hr hr2 (hs.inv hi) (hs.blankTail hb)).under _

/-- The tokens of a beginning are a beginning of the tokens. -/
theorem lex_prefix (s t : Str) : ∀ e cm, ∃ us, lex e cm (s ++ t) = lex e cm s ++ us := by
  induction s with
  | nil => intro e cm; exact ⟨_, by simp [lex]; rfl⟩
  | cons c s ih =>
    intro e cm
    simp only [List.cons_append, lex]
    split
    · obtain ⟨us, h⟩ := ih false false; exact ⟨us, by simp [h]⟩
    · split
      · exact ih _ _
      · split
        · exact ih _ _
        · split
          · exact ih _ _
          · obtain ⟨us, h⟩ := ih false false; exact ⟨us, by simp [h]⟩

theorem fromStr_grown {s t ds dt} (h : fromStr s = .ok ds) (ht : fromStr (s ++ t) = .ok dt) : Grown ds dt := by
  rw [fromStr_eq] at h ht
  obtain ⟨us, hu⟩ := lex_prefix s t false false
  rw [hu] at ht
  exact trun_grown h ht inv_init trivial

/-- The normal form of a beginning is a beginning of the normal form. -/
theorem normal_prefix (t : Str) : ∀ s, (∃ u, dropDangling (keepBackslashes (s ++ t)) = dropDangling (keepBackslashes s) ++ u) ∧
    (∃ u, dropDangling (keepFirstBackslash (s ++ t)) = dropDangling (keepFirstBackslash s) ++ u) ∧
    (∃ u, dropDangling ('\\' :: dropRestOfLine (s ++ t)) = dropDangling ('\\' :: dropRestOfLine s) ++ u) := by
  intro s
  generalize hn : s.length = n
  induction n using Nat.strongRecOn generalizing s with
  | _ n ih =>
    subst hn
    cases s with
    | nil => exact ⟨⟨_, rfl⟩, ⟨_, rfl⟩, ⟨_, rfl⟩⟩
    | cons c s =>
      obtain ⟨i1, i2, i3⟩ := ih s.length (by simp) s rfl
      have dd : ∀ {c : Char} {r : Str}, c ≠ '\\' → dropDangling (c :: r) = c :: dropDangling r := by
        intro c r h; cases r <;> simp [dropDangling, h]
      refine ⟨?_, ?_, ?_⟩
      · by_cases h1 : c = '%'
        · subst h1; simpa [keepBackslashes] using i2
        · by_cases h2 : c = '\\'
          · subst h2
            cases s with
            | nil => exact ⟨_, by simp [keepBackslashes, dropDangling]; rfl⟩
            | cons d s =>
              obtain ⟨⟨u, j1⟩, _, _⟩ := ih s.length (by simp; omega) s rfl
              exact ⟨u, by simp [keepBackslashes, dropDangling, j1]⟩
          · obtain ⟨u, i1⟩ := i1
            refine ⟨u, ?_⟩
            have e : ∀ r, keepBackslashes (c :: r) = c :: keepBackslashes r := by
              intro r; simp [keepBackslashes, h1, h2]
            rw [List.cons_append, e, e, dd h2, dd h2, i1, List.cons_append]
      · by_cases h1 : c = '\n'
        · subst h1
          obtain ⟨u, i1⟩ := i1
          refine ⟨u, ?_⟩
          simp only [List.cons_append, keepFirstBackslash]
          rw [dd (by decide), dd (by decide), i1, List.cons_append]
        · by_cases h2 : c = '\\'
          · subst h2; simpa [keepFirstBackslash] using i3
          · simpa [keepFirstBackslash, h1, h2] using i2
      · by_cases h1 : c = '\n'
        · subst h1
          obtain ⟨u, i1⟩ := i1
          exact ⟨u, by simp [dropRestOfLine, dropDangling, i1]⟩
        · simpa [dropRestOfLine, h1] using i3

end LatexAst.Ast1
