import Verif.Spec.FinalBlanks
import Verif.Proofs.Grown1
import Verif.Proofs.Verbatim
import Verif.Props.Parsing

/-!
# Blanks at the end of a source, stage 1
-/

namespace LatexAst.Ast1
open Spec

variable {rec : Str → Res (List Chunk)}

theorem blank_facts {c : Char} (h : isWhitespace c = true) :
    c ≠ '%' ∧ c ≠ '\\' ∧ ScopeVariant.fromOpening c = none ∧ ∀ v : ScopeVariant, v.opening ≠ c ∧ v.closing ≠ c := by
  have ne : ∀ x : Char, isWhitespace x = false → c ≠ x := by
    rintro x hx rfl; rw [h] at hx; cases hx
  refine ⟨ne _ (by decide), ne _ (by decide), ?_, fun v => ?_⟩
  · unfold ScopeVariant.fromOpening
    rw [if_neg (ne _ (by decide)), if_neg (ne _ (by decide)), if_neg (ne _ (by decide))]
  · cases v <;> exact ⟨(ne _ (by decide)).symm, (ne _ (by decide)).symm⟩

theorem lex_blank : ∀ {w : Str}, Blank w → lex false false w = w.map fun c => (false, c) := by
  intro w
  induction w with
  | nil => intro _; rfl
  | cons c w ih =>
    intro h
    obtain ⟨h1, h2, _⟩ := blank_facts (h c (.head _))
    have := ih fun x hx => h x (.tail _ hx)
    simp only [lex, List.map_cons]
    split
    · rw [this]
    · rw [if_neg (fun e => h1 e.1), if_neg (fun e => h2 e.1)]; simp [this]

theorem keep_blank : ∀ {w : Str}, Blank w → keepBackslashes w = w := by
  intro w
  induction w with
  | nil => intro _; rfl
  | cons c w ih =>
    intro h
    obtain ⟨h1, h2, _⟩ := blank_facts (h c (.head _))
    have := ih fun x hx => h x (.tail _ hx)
    simp [keepBackslashes, h1, h2, this]

/-- The normal form of the source with a line end and blanks after it. -/
theorem keep_final {w : Str} (hw : Blank w) : ∀ s : Str,
    (NoDangling (keepBackslashes s) → keepBackslashes (s ++ '\n' :: w) = keepBackslashes s ++ '\n' :: w) ∧
    (NoDangling (keepFirstBackslash s) → keepFirstBackslash (s ++ '\n' :: w) = keepFirstBackslash s ++ '\n' :: w) ∧
    (NoDangling ('\\' :: dropRestOfLine s) → dropRestOfLine (s ++ '\n' :: w) = dropRestOfLine s ++ '\n' :: w) := by
  intro s
  generalize hn : s.length = n
  induction n using Nat.strongRecOn generalizing s with
  | _ n ih =>
    subst hn
    cases s with
    | nil =>
      refine ⟨fun _ => ?_, fun _ => ?_, fun h => ?_⟩
      · simp [keepBackslashes, keep_blank hw]
      · simp [keepFirstBackslash, keep_blank hw]
      · simp [dropRestOfLine, NoDangling] at h
    | cons c s =>
      obtain ⟨i1, i2, i3⟩ := ih s.length (by simp) s rfl
      refine ⟨fun h => ?_, fun h => ?_, fun h => ?_⟩
      · by_cases h1 : c = '%'
        · subst h1
          simp only [keepBackslashes] at h
          simpa [keepBackslashes] using i2 h
        · by_cases h2 : c = '\\'
          · subst h2
            cases s with
            | nil => simp [keepBackslashes, NoDangling] at h
            | cons d s =>
              obtain ⟨j1, _, _⟩ := ih s.length (by simp; omega) s rfl
              have h' : NoDangling (keepBackslashes s) := by simpa [keepBackslashes, NoDangling] using h
              simp [keepBackslashes, j1 h']
          · have e : ∀ r, keepBackslashes (c :: r) = c :: keepBackslashes r := by
              intro r; simp [keepBackslashes, h1, h2]
            rw [e, noDangling_cons h2] at h
            rw [List.cons_append, e, e, i1 h, List.cons_append]
      · by_cases h1 : c = '\n'
        · subst h1
          simp only [keepFirstBackslash] at h
          rw [noDangling_cons (by decide)] at h
          simp [keepFirstBackslash, i1 h]
        · by_cases h2 : c = '\\'
          · subst h2
            simp only [keepFirstBackslash] at h
            simpa [keepFirstBackslash] using i3 h
          · simp only [keepFirstBackslash, h1, h2] at h
            simpa [keepFirstBackslash, h1, h2] using i2 h
      · by_cases h1 : c = '\n'
        · subst h1
          simp only [dropRestOfLine, NoDangling] at h
          simp [dropRestOfLine, i1 h]
        · simp only [dropRestOfLine, h1] at h
          simpa [dropRestOfLine, h1] using i3 h

theorem dropDangling_self : ∀ {s : Str}, NoDangling s → dropDangling s = s := by
  intro s
  generalize hn : s.length = n
  induction n using Nat.strongRecOn generalizing s with
  | _ n ih =>
    subst hn
    cases s with
    | nil => intro _; rfl
    | cons c s =>
      intro h
      by_cases h2 : c = '\\'
      · subst h2
        cases s with
        | nil => simp [NoDangling] at h
        | cons d s =>
          have h' : NoDangling s := by simpa [NoDangling] using h
          simp [dropDangling, ih s.length (by simp; omega) rfl h']
      · rw [noDangling_cons h2] at h
        simp [dropDangling, h2, ih s.length (by simp) rfl h]

/-- Blanks at the end, from any buffer. -/
inductive Ends (w : Str) : Res (List Chunk) → Res (List Chunk) → Prop
  | error {f} : Ends w (.error f) (.error f)
  | added {cs l} : Ends w (.ok cs) (.ok (cs ++ [.mk l (.text w)]))
  | longer {cs l t} : Ends w (.ok (cs ++ [.mk l (.text t)])) (.ok (cs ++ [.mk l (.text (t ++ w))]))
  | blanks {cs l k l'} : Blank k → Ends w (.ok (cs ++ [.mk l (.text k)])) (.ok (cs ++ [.mk l' (.text (k ++ w))]))

theorem pushLastContent_kind : ∀ (sc : List ScopeBuf) (x : Str), ((pushLastContent sc x).getLast?).map (fun y => y.2.1) = sc.getLast?.map (fun y => y.2.1)
  | [], _ => rfl
  | [(c, v, p)], _ => rfl
  | a :: b :: r, x => by
    have := pushLastContent_kind (b :: r) x
    obtain ⟨z, zs, hz⟩ : ∃ z zs, pushLastContent (b :: r) x = z :: zs := by
      cases r with
      | nil => obtain ⟨c, v, p⟩ := b; exact ⟨_, _, rfl⟩
      | cons y r => exact ⟨_, _, rfl⟩
    simp only [pushLastContent, hz, List.getLast?_cons_cons] at this ⊢
    exact this

def blankToks (w : Str) : List Tok := w.map fun c => (false, c)

theorem run_text : ∀ {w : Str}, Blank w → ∀ a bl ln, trun rec (blankToks w) (.text a) bl ln = .ok (textC (a ++ w) bl) := by
  intro w
  induction w with
  | nil => intro _ a bl ln; simp [blankToks, trun, tfinish]
  | cons c w ih =>
    intro h a bl ln
    obtain ⟨_, _, h3, _⟩ := blank_facts (h c (.head _))
    have := ih (fun x hx => h x (.tail _ hx)) (a ++ [c]) bl (lnAfter ln (false, c))
    simp only [blankToks, List.map_cons, trun, tstep, h3] at this ⊢
    simp [this]

theorem run_scope : ∀ {w : Str}, Blank w → ∀ a v d bl ln, trun rec (blankToks w) (.scope a v d) bl ln = fail bl (.unclosedScope v) := by
  intro w
  induction w with
  | nil => intro _ a v d bl ln; rfl
  | cons c w ih =>
    intro h a v d bl ln
    obtain ⟨_, _, _, h4⟩ := blank_facts (h c (.head _))
    have := ih (fun x hx => h x (.tail _ hx)) (a ++ [c]) v d bl (lnAfter ln (false, c))
    simp only [blankToks, List.map_cons, trun, tstep, (h4 v).1, (h4 v).2] at this ⊢
    simp [this, fail]

theorem run_command : ∀ {w : Str}, Blank w → ∀ l sc tr bl ln, ∃ ln', trun rec (blankToks w) (.command l sc 0 tr) bl ln =
    (match flushC rec l sc bl with
    | .error f => .error f
    | .ok cs => .ok (cs ++ textC (tr ++ w) ln')) := by
  intro w
  induction w with
  | nil => intro _ l sc tr bl ln; exact ⟨ln, by simp only [blankToks, List.map_nil, trun, tfinish, List.append_nil]; cases flushC rec l sc bl <;> rfl⟩
  | cons c w ih =>
    intro h l sc tr bl ln
    have hc := h c (.head _)
    obtain ⟨_, _, h3, _⟩ := blank_facts hc
    obtain ⟨ln', e⟩ := ih (fun x hx => h x (.tail _ hx)) l sc (tr ++ [c]) bl (lnAfter ln (false, c))
    refine ⟨ln', ?_⟩
    simp only [blankToks, List.map_cons, trun, tstep, h3, hc] at e ⊢
    simp only [if_true]
    rw [e]
    cases flushC rec l sc bl <;> simp

theorem run_argument : ∀ {w : Str}, Blank w → ∀ l sc d tr bl ln,
    trun rec (blankToks w) (.command l sc (d + 1) tr) bl ln = tfinish rec (.command l sc (d + 1) tr) bl ln := by
  intro w
  induction w with
  | nil => intro _ l sc d tr bl ln; rfl
  | cons c w ih =>
    intro h l sc d tr bl ln
    obtain ⟨_, _, _, h4⟩ := blank_facts (h c (.head _))
    have e := ih (fun x hx => h x (.tail _ hx)) l (pushLastContent sc [c]) d tr bl (lnAfter ln (false, c))
    have k := pushLastContent_kind sc [c]
    simp only [blankToks, List.map_cons, trun, tstep, tfinish] at e ⊢
    cases hg : sc.getLast? with
    | none => rfl
    | some y =>
      obtain ⟨a, v, p⟩ := y
      simp only [(h4 v).1, (h4 v).2, if_false, Bool.false_eq_true]
      rw [e]
      rw [hg] at k
      cases hg' : (pushLastContent sc [c]).getLast? with
      | none => rw [hg'] at k; cases k
      | some z =>
        rw [hg'] at k
        obtain ⟨a', v', p'⟩ := z
        simp only [Option.map_some, Option.some.injEq] at k
        subst k
        rfl

theorem Ends.under {w r r'} (h : Ends w r r') (p : List Chunk) :
    (∃ f, r = .error f ∧ r' = .error f) ∨ ∃ cs cs', r = .ok cs ∧ r' = .ok cs' ∧ Ends w (.ok (p ++ cs)) (.ok (p ++ cs')) := by
  cases h with
  | error => exact .inl ⟨_, rfl, rfl⟩
  | added => exact .inr ⟨_, _, rfl, rfl, by rw [← List.append_assoc]; exact .added⟩
  | longer => exact .inr ⟨_, _, rfl, rfl, by rw [← List.append_assoc, ← List.append_assoc]; exact .longer⟩
  | blanks hk => exact .inr ⟨_, _, rfl, rfl, by rw [← List.append_assoc, ← List.append_assoc]; exact .blanks hk⟩

theorem trun_ends {w : Str} (hw : Blank w) (hn : w ≠ []) : ∀ {ts b bl ln}, Inv b bl ln → BlankTail b →
    Ends w (trun rec ts b bl ln) (trun rec (ts ++ blankToks w) b bl ln) := by
  intro ts
  induction ts with
  | nil =>
    intro b bl ln hi hb
    rw [List.nil_append]
    cases b with
    | text a =>
      rw [run_text hw]
      simp only [trun, tfinish, textC]
      rw [if_neg (c := a ++ w = []) (by simp [hn])]
      by_cases ha : a = []
      · subst ha; simp only [if_true]; exact .added (cs := [])
      · rw [if_neg ha]; exact .longer (cs := [])
    | scope a v d => rw [run_scope hw]; exact .error
    | command l sc d tr =>
      cases d with
      | zero =>
        obtain ⟨ln', e⟩ := run_command (rec := rec) hw l sc tr bl ln
        rw [e]
        simp only [trun, tfinish]
        cases flushC rec l sc bl with
        | error f => exact .error
        | ok cs =>
          simp only [textC]
          rw [if_neg (c := tr ++ w = []) (by simp [hn])]
          by_cases ht : tr = []
          · subst ht; simp only [if_true, List.append_nil]; exact .added
          · rw [if_neg ht]; exact .blanks hb.2
      | succ d =>
        rw [run_argument hw]
        simp only [trun, tfinish]
        cases sc.getLast? with
        | none => exact .error
        | some y => obtain ⟨a, v, p⟩ := y; exact .error
  | cons t ts ih =>
    intro b bl ln hi hb
    simp only [List.cons_append, trun]
    rcases ht : tstep rec b bl (lnAfter ln t) t with f | ⟨new, b', bl'⟩
    · exact .error
    · have hs := tstep_ok hi.ctl ht
      rcases (ih (hs.inv hi) (hs.blankTail hb)).under new with ⟨f, e, e'⟩ | ⟨cs, cs', e, e', h⟩
      · simp only [e, e']; exact .error
      · simp only [e, e']; exact h

/-- Blanks at the end of a source. -/
theorem fromStr_ends {s w : Str} (hs : EndsClosed s) (hw : FinalBlanks w) : Ends w (fromStr s) (fromStr (s ++ w)) := by
  obtain ⟨r, rfl, hr⟩ := hw
  have hb : Blank ('\n' :: r) := by
    intro c hc
    rcases List.mem_cons.1 hc with rfl | hc
    · decide
    · exact hr c hc
  rw [fromStr_normal s, fromStr_normal (s ++ _), (keep_final hr s).1 hs, dropDangling_self hs,
    dropDangling_self (noDangling_append hs (noDangling_plain fun x hx => (blank_facts (hb x hx)).2.1))]
  have hc : Clean (keepBackslashes s) := by have := (keep_clean s).1; rwa [dropDangling_self hs] at this
  rw [fromStr_eq, fromStr_eq, lex_clean_append hc, lex_blank hb]
  exact trun_ends hb (by simp) inv_init trivial

end LatexAst.Ast1
