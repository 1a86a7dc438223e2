import Verif.Spec.Depth
import Verif.Proofs.Parse1
import Verif.Proofs.Lines2

/-! The depth of recursive calls of the stage-1 parser. -/

namespace LatexAst.Ast1

/-! ### more calls do not change an answer -/

/-- `rec'` gives the answers of `rec` that did not run out of calls. -/
def Refines {α β : Type} (rec rec' : α → Res β) : Prop := ∀ a, rec a ≠ .error .fuel → rec' a = rec a

theorem fuel_ne {α : Type} {f : Fail} (h : f ≠ .fuel) : (.error f : Res α) ≠ .error .fuel := fun he => h (by cases he; rfl)

variable {rec rec' : Str → Res (List Chunk)}

theorem evalArgs_refines (hr : Refines rec rec') {sc : List ScopeBuf} (h : evalArgs rec sc ≠ .error .fuel) :
    evalArgs rec' sc = evalArgs rec sc := by
  induction sc with
  | nil => rfl
  | cons x sc ih =>
    obtain ⟨a, v, p⟩ := x
    simp only [evalArgs] at h ⊢
    cases hx : rec a with
    | error f =>
      rw [hx] at h
      rw [hr a (by rw [hx]; intro he; cases he; exact h rfl), hx]
    | ok cs =>
      rw [hr a (by rw [hx]; simp), hx]
      rw [hx] at h
      simp only at h ⊢
      rw [ih (by intro he; rw [he] at h; exact h rfl)]

theorem flushC_refines (hr : Refines rec rec') {l sc bl} (h : flushC rec l sc bl ≠ .error .fuel) :
    flushC rec' l sc bl = flushC rec l sc bl := by
  simp only [flushC] at h ⊢
  rw [evalArgs_refines hr (by intro he; rw [he] at h; exact h rfl)]

theorem tstep_refines (hr : Refines rec rec') {b bl ln t} (h : tstep rec b bl ln t ≠ .error .fuel) :
    tstep rec' b bl ln t = tstep rec b bl ln t := by
  rcases b with ⟨a, v, d⟩ | ⟨l, sc, d, tr⟩ | ⟨a⟩
  · simp only [tstep] at h ⊢
    by_cases h1 : t.1 = true
    · rw [if_pos h1, if_pos h1]
    · rw [if_neg h1] at h; rw [if_neg h1, if_neg h1]
      by_cases h2 : v.opening = t.2
      · rw [if_pos h2, if_pos h2]
      · rw [if_neg h2] at h; rw [if_neg h2, if_neg h2]
        by_cases h3 : v.closing = t.2
        · rw [if_pos h3] at h; rw [if_pos h3, if_pos h3]
          by_cases h4 : d = 1
          · rw [if_pos h4] at h; rw [if_pos h4, if_pos h4]
            rw [hr a (by intro he; rw [he] at h; exact h rfl)]
          · rw [if_neg h4, if_neg h4]
        · rw [if_neg h3, if_neg h3]
  · cases d with
    | succ d => rfl
    | zero =>
      by_cases hf : flushC rec l sc bl = .error .fuel
      · simp only [tstep, hf] at h ⊢
        cases ho : ScopeVariant.fromOpening t.2 with
        | some v => rfl
        | none =>
          rw [ho] at h
          simp only at h ⊢
          by_cases h1 : isWhitespace t.2 = true
          · rw [if_pos h1, if_pos h1]
          · rw [if_neg h1] at h; rw [if_neg h1, if_neg h1]
            by_cases h2 : t.1 = true
            · rw [if_pos h2] at h; exact absurd rfl h
            · rw [if_neg h2] at h; rw [if_neg h2, if_neg h2]
              by_cases h3 : tr ≠ []
              · rw [if_pos h3] at h; exact absurd rfl h
              · rw [if_neg h3] at h; rw [if_neg h3, if_neg h3]
                cases hc : ScopeVariant.fromClosing t.2 with
                | some v => rfl
                | none =>
                  rw [hc] at h
                  simp only at h ⊢
                  by_cases h4 : sc = []
                  · rw [if_pos h4, if_pos h4]
                  · rw [if_neg h4] at h; exact absurd rfl h
      · simp only [tstep, flushC_refines hr hf]
  · rfl

theorem tfinish_refines (hr : Refines rec rec') {b bl ln} (h : tfinish rec b bl ln ≠ .error .fuel) :
    tfinish rec' b bl ln = tfinish rec b bl ln := by
  rcases b with ⟨a, v, d⟩ | ⟨l, sc, d, tr⟩ | ⟨a⟩
  · rfl
  · cases d with
    | succ d => rfl
    | zero =>
      simp only [tfinish] at h ⊢
      rw [flushC_refines hr (by intro he; rw [he] at h; exact h rfl)]
  · rfl

theorem trun_refines (hr : Refines rec rec') {ts b bl ln} (h : trun rec ts b bl ln ≠ .error .fuel) :
    trun rec' ts b bl ln = trun rec ts b bl ln := by
  induction ts generalizing b bl ln with
  | nil => exact tfinish_refines hr h
  | cons t ts ih =>
    simp only [trun] at h ⊢
    rw [tstep_refines hr (by intro he; rw [he] at h; exact h rfl)]
    cases ht : tstep rec b bl (lnAfter ln t) t with
    | error f => rfl
    | ok o =>
      obtain ⟨new, b', bl'⟩ := o
      rw [ht] at h
      simp only at h ⊢
      rw [ih (by intro he; rw [he] at h; exact h rfl)]

theorem parseFuel_refines (n : Nat) : Refines (parseFuel n) (parseFuel (n + 1)) := by
  induction n with
  | zero => intro s h; exact absurd rfl h
  | succ n ih =>
    intro s h
    rw [parseFuel_succ] at h
    rw [parseFuel_succ, parseFuel_succ n]
    exact trun_refines ih h

theorem parseFuel_mono {n m : Nat} (h : n ≤ m) : Refines (parseFuel n) (parseFuel m) := by
  induction h with
  | refl => intro s _; rfl
  | step _ ih =>
    intro s hs
    have := ih s hs
    rw [parseFuel_refines _ s (by rw [this]; exact hs), this]

/-- If the calls suffice, the answer is the answer. -/
theorem parseFuel_fromStr {n s} (h : parseFuel n s ≠ .error .fuel) : parseFuel n s = fromStr s := by
  have h1 := parseFuel_mono (Nat.le_add_right n (s.length + 1)) s h
  rw [← h1]
  exact parseFuel_adequate _ _ _ (by omega) (by omega)

/-! ### accepted sources -/

theorem levelAt_head {d k lv} (h : LevelAt d (k + 1) lv) : ∃ inner, LevelAt inner k lv ∧
    ((∃ l sv, Chunk.mk l (.scope (.mk inner sv)) ∈ d) ∨
      ∃ l label args prec sv, Chunk.mk l (.command (.mk label args)) ∈ d ∧ (prec, Scope.mk inner sv) ∈ args) := by
  have key : ∀ {j lv}, LevelAt d j lv → ∀ k, j = k + 1 → ∃ inner, LevelAt inner k lv ∧
    ((∃ l sv, Chunk.mk l (.scope (.mk inner sv)) ∈ d) ∨
      ∃ l label args prec sv, Chunk.mk l (.command (.mk label args)) ∈ d ∧ (prec, Scope.mk inner sv) ∈ args) := by
    intro j lv h
    induction h with
    | top => intro k hk; omega
    | @scope j cs l inner sv hl hm ih =>
      intro k hk
      obtain rfl : j = k := by omega
      cases j with
      | zero => cases hl; exact ⟨inner, .top, .inl ⟨_, _, hm⟩⟩
      | succ j => obtain ⟨i, h1, h2⟩ := ih j rfl; exact ⟨i, .scope h1 hm, h2⟩
    | @arg j cs l label args prec inner sv hl hm ha ih =>
      intro k hk
      obtain rfl : j = k := by omega
      cases j with
      | zero => cases hl; exact ⟨inner, .top, .inr ⟨_, _, _, _, _, hm, ha⟩⟩
      | succ j => obtain ⟨i, h1, h2⟩ := ih j rfl; exact ⟨i, .arg h1 hm ha, h2⟩
  exact key h k rfl

theorem levelAt_scope {d l inner sv k lv} (hm : Chunk.mk l (.scope (.mk inner sv)) ∈ d) (h : LevelAt inner k lv) :
    LevelAt d (k + 1) lv := by
  induction h with
  | top => exact .scope .top hm
  | scope _ hm ih => exact .scope ih hm
  | arg _ hm ha ih => exact .arg ih hm ha

theorem levelAt_arg {d l label args prec inner sv k lv} (hm : Chunk.mk l (.command (.mk label args)) ∈ d)
    (ha : (prec, Scope.mk inner sv) ∈ args) (h : LevelAt inner k lv) : LevelAt d (k + 1) lv := by
  induction h with
  | top => exact .arg .top hm ha
  | scope _ hm ih => exact .scope ih hm
  | arg _ hm ha ih => exact .arg ih hm ha

theorem parseFuel_depth {n s d} (h : parseFuel n s = .ok d) {k lv} (hl : LevelAt d k lv) : k < n := by
  induction n generalizing s d k lv with
  | zero => cases h
  | succ n ih =>
    have hc := (parseFuel_ok h).childOk
    cases k with
    | zero => omega
    | succ k =>
      obtain ⟨inner, h1, ⟨l, sv, hm⟩ | ⟨l, label, args, prec, sv, hm, ha⟩⟩ := levelAt_head hl
      · obtain ⟨_, a, h2⟩ := (hc _ hm).1 _ _ _ rfl
        have := ih h2 h1
        omega
      · obtain ⟨a, h2⟩ := (hc _ hm).2 _ _ _ _ _ _ rfl ha
        have := ih h2 h1
        omega

/-- `inner` is the content of a scope or argument in `d`. -/
def Content (d : List Chunk) (inner : List Chunk) : Prop :=
  (∃ l sv, Chunk.mk l (.scope (.mk inner sv)) ∈ d) ∨
    ∃ l label args prec sv, Chunk.mk l (.command (.mk label args)) ∈ d ∧ (prec, Scope.mk inner sv) ∈ args

/-- `rec` answers as `rec'` does on what ends up in `d`. -/
def Answers (rec rec' : Str → Res (List Chunk)) (d : List Chunk) : Prop :=
  ∀ a inner, rec' a = .ok inner → Content d inner → rec a = .ok inner

theorem Answers.sub {d d'} (h : Answers rec rec' d) (hs : ∀ c ∈ d', c ∈ d) : Answers rec rec' d' := by
  intro a inner h1 h2
  refine h a inner h1 ?_
  rcases h2 with ⟨l, sv, hm⟩ | ⟨l, label, args, prec, sv, hm, ha⟩
  · exact .inl ⟨l, sv, hs _ hm⟩
  · exact .inr ⟨l, label, args, prec, sv, hs _ hm, ha⟩

theorem evalArgs_answers {sc : List ScopeBuf} {args} (h : evalArgs rec' sc = .ok args)
    (hr : ∀ a inner prec sv, rec' a = .ok inner → (prec, Scope.mk inner sv) ∈ args → rec a = .ok inner) :
    evalArgs rec sc = .ok args := by
  induction sc generalizing args with
  | nil => exact h
  | cons x sc ih =>
    obtain ⟨a, v, p⟩ := x
    simp only [evalArgs] at h ⊢
    cases hx : rec' a with
    | error f => rw [hx] at h; cases h
    | ok cs =>
      rw [hx] at h
      simp only at h
      cases hy : evalArgs rec' sc with
      | error f => rw [hy] at h; cases h
      | ok as =>
        rw [hy] at h
        cases h
        rw [hr a cs p v hx (by simp)]
        simp only
        rw [ih hy (fun a inner prec sv h1 h2 => hr a inner prec sv h1 (List.mem_cons_of_mem _ h2))]

theorem flushC_answers {l sc bl cs} (h : flushC rec' l sc bl = .ok cs) (hr : Answers rec rec' cs) :
    flushC rec l sc bl = .ok cs := by
  obtain ⟨as, ha, rfl⟩ := flushC_ok h
  simp only [flushC]
  rw [evalArgs_answers ha (fun a inner prec sv h1 h2 => hr a inner h1 (.inr ⟨_, _, _, _, _, List.mem_singleton.2 rfl, h2⟩))]

theorem tstep_answers {b bl ln t new b' bl'} (h : tstep rec' b bl ln t = .ok (new, b', bl')) (hr : Answers rec rec' new) :
    tstep rec b bl ln t = .ok (new, b', bl') := by
  rcases b with ⟨a, v, d⟩ | ⟨l, sc, d, tr⟩ | ⟨a⟩
  · simp only [tstep] at h ⊢
    by_cases h1 : t.1 = true
    · rw [if_pos h1] at h ⊢; exact h
    · rw [if_neg h1] at h ⊢
      by_cases h2 : v.opening = t.2
      · rw [if_pos h2] at h ⊢; exact h
      · rw [if_neg h2] at h ⊢
        by_cases h3 : v.closing = t.2
        · rw [if_pos h3] at h ⊢
          by_cases h4 : d = 1
          · rw [if_pos h4] at h ⊢
            cases hx : rec' a with
            | error f => rw [hx] at h; cases f <;> cases h
            | ok inner =>
              rw [hx] at h
              cases h
              rw [hr a inner hx (.inl ⟨_, _, List.mem_singleton.2 rfl⟩)]
          · rw [if_neg h4] at h ⊢; exact h
        · rw [if_neg h3] at h ⊢; exact h
  · cases d with
    | succ d => exact h
    | zero =>
      simp only [tstep] at h ⊢
      cases ho : ScopeVariant.fromOpening t.2 with
      | some v => rw [ho] at h; exact h
      | none =>
        rw [ho] at h
        simp only at h ⊢
        by_cases h1 : isWhitespace t.2 = true
        · rw [if_pos h1] at h ⊢; exact h
        · rw [if_neg h1] at h ⊢
          by_cases h2 : t.1 = true
          · rw [if_pos h2] at h ⊢
            cases hf : flushC rec' l sc bl with
            | error f => rw [hf] at h; cases h
            | ok cs =>
              rw [hf] at h
              cases h
              rw [flushC_answers hf (hr.sub fun c hc => by simp [hc])]
          · rw [if_neg h2] at h ⊢
            by_cases h3 : tr ≠ []
            · rw [if_pos h3] at h ⊢
              cases hf : flushC rec' l sc bl with
              | error f => rw [hf] at h; cases h
              | ok cs =>
                rw [hf] at h
                cases h
                rw [flushC_answers hf hr]
            · rw [if_neg h3] at h ⊢
              cases hc : ScopeVariant.fromClosing t.2 with
              | some v => rw [hc] at h; exact h
              | none =>
                rw [hc] at h
                simp only at h ⊢
                by_cases h4 : sc = []
                · rw [if_pos h4] at h ⊢; exact h
                · rw [if_neg h4] at h ⊢
                  cases hf : flushC rec' l sc bl with
                  | error f => rw [hf] at h; cases h
                  | ok cs =>
                    rw [hf] at h
                    cases h
                    rw [flushC_answers hf hr]
  · exact h

theorem tfinish_answers {b bl ln d} (h : tfinish rec' b bl ln = .ok d) (hr : Answers rec rec' d) :
    tfinish rec b bl ln = .ok d := by
  rcases b with ⟨a, v, d⟩ | ⟨l, sc, d, tr⟩ | ⟨a⟩
  · exact h
  · cases d with
    | succ d => exact h
    | zero =>
      simp only [tfinish] at h ⊢
      cases hf : flushC rec' l sc bl with
      | error f => rw [hf] at h; cases h
      | ok cs =>
        rw [hf] at h
        cases h
        rw [flushC_answers hf (hr.sub fun c hc => by simp [hc])]
  · exact h

theorem trun_answers {ts b bl ln d} (h : trun rec' ts b bl ln = .ok d) (hr : Answers rec rec' d) : trun rec ts b bl ln = .ok d := by
  induction ts generalizing b bl ln d with
  | nil => exact tfinish_answers h hr
  | cons t ts ih =>
    simp only [trun] at h ⊢
    cases ht : tstep rec' b bl (lnAfter ln t) t with
    | error f => rw [ht] at h; cases h
    | ok o =>
      obtain ⟨new, b', bl'⟩ := o
      rw [ht] at h
      simp only at h
      cases hx : trun rec' ts b' bl' (lnAfter ln t) with
      | error f => rw [hx] at h; cases h
      | ok rest =>
        rw [hx] at h
        cases h
        rw [tstep_answers ht (hr.sub fun c hc => List.mem_append_left _ hc)]
        simp only
        rw [ih hx (hr.sub fun c hc => List.mem_append_right _ hc)]

theorem parseFuel_of_depth {n s d} (h : fromStr s = .ok d) (hd : ∀ k lv, LevelAt d k lv → k < n) : parseFuel n s = .ok d := by
  induction n generalizing s d with
  | zero => exact absurd (hd 0 d .top) (by omega)
  | succ n ih =>
    rw [fromStr_eq] at h
    rw [parseFuel_succ]
    refine trun_answers h (fun a inner h1 h2 => ih h1 ?_)
    intro k lv hl
    rcases h2 with ⟨l, sv, hm⟩ | ⟨l, label, args, prec, sv, hm, ha⟩
    · have := hd _ _ (levelAt_scope hm hl); omega
    · have := hd _ _ (levelAt_arg hm ha hl); omega

/-! ### every source -/

open Ast2 (openers)

theorem openers_nil : openers [] = 0 := rfl

/-- Opening brackets in the contents, with their own. -/
def scOpen : List ScopeBuf → Nat
  | [] => 0
  | (a, _, _) :: r => openers a + 1 + scOpen r
def Buffer.open : Buffer → Nat
  | .text _ => 0
  | .scope a _ _ => openers a + 1
  | .command _ sc _ _ => scOpen sc

def toksOpen : List Tok → Nat
  | [] => 0
  | t :: ts => openers [t.2] + toksOpen ts

theorem scOpen_append (a b : List ScopeBuf) : scOpen (a ++ b) = scOpen a + scOpen b := by
  induction a with
  | nil => simp [scOpen]
  | cons x a ih => obtain ⟨u, v, w⟩ := x; simp [scOpen, ih]; omega

theorem scOpen_mem {sc : List ScopeBuf} {a v p} (h : (a, v, p) ∈ sc) : openers a < scOpen sc := by
  induction sc with
  | nil => cases h
  | cons x sc ih =>
    obtain ⟨u, v', w⟩ := x
    simp only [scOpen]
    cases h with
    | head => omega
    | tail _ h => have := ih h; omega

theorem contents_open {b : Buffer} {a : Str} (h : a ∈ b.contents) : openers a < b.open := by
  cases b with
  | text a => cases h
  | scope a v d => simp [Buffer.contents] at h; subst h; simp [Buffer.open]
  | command l sc d tr =>
    simp only [Buffer.contents, List.mem_map] at h
    obtain ⟨⟨a', v, p⟩, hm, rfl⟩ := h
    exact scOpen_mem hm

theorem lex_open (e cm : Bool) (s : Str) : toksOpen (lex e cm s) ≤ openers s := by
  have hc : ∀ c (s : Str), openers (c :: s) = openers [c] + openers s := by
    intro c s; simp [openers, List.countP_cons]; omega
  induction s generalizing e cm with
  | nil => simp [lex, toksOpen]
  | cons c s ih =>
    rw [hc]
    unfold lex
    split
    · have := ih false false
      simp only [toksOpen]
      omega
    · split
      · have := ih e true; omega
      · split
        · have := ih true cm; omega
        · split
          · have := ih e cm; omega
          · have := ih false false
            simp only [toksOpen]
            omega

theorem open_start (c : Char) : (startB c).open = 0 := by
  unfold startB; split <;> rfl

theorem openers_opening (v : ScopeVariant) : openers [v.opening] = 1 := by cases v <;> decide

theorem TStep.open {rec b bl ln t new b' bl'} (h : TStep rec bl ln b t new b' bl') :
    b'.open ≤ b.open + openers [t.2] := by
  have hb : ∀ c, openers ['\\', c] = openers [c] := by
    intro c; simp only [openers, List.countP_cons]; simp
  have ha : ∀ a b : Str, openers (a ++ b) = openers a + openers b := by
    intro a b; simp [openers]
  cases h
  case tEsc a c => rw [open_start]; omega
  case cEsc a c => rw [open_start]; omega
  all_goals simp only [Buffer.open, scOpen_append, scOpen, openers_opening, ha, hb, openers_nil]
  all_goals omega

theorem trun_congr_open {L : Nat} (h : ∀ a, openers a < L → rec a = rec' a) {ts b bl ln} (hi : Inv b bl ln)
    (hL : b.open + toksOpen ts ≤ L) : trun rec ts b bl ln = trun rec' ts b bl ln := by
  induction ts generalizing b bl ln with
  | nil =>
    simp only [trun]
    exact tfinish_congr fun a ha => h a (by have := contents_open ha; simp [toksOpen] at hL; omega)
  | cons t ts ih =>
    simp only [trun]
    rw [tstep_congr fun a ha => h a (by have := contents_open ha; simp [toksOpen] at hL; omega)]
    rcases ht : tstep rec' b bl (lnAfter ln t) t with f | ⟨new, b', bl'⟩
    · rfl
    · have hs := tstep_ok hi.ctl ht
      have := hs.open
      simp only [toksOpen] at hL
      simp only
      rw [ih (hs.inv hi) (by omega)]

theorem parseFuel_open (n : Nat) (s : Str) (hn : openers s < n) : parseFuel n s = fromStr s := by
  induction n generalizing s with
  | zero => omega
  | succ n ih =>
    rw [parseFuel_succ, fromStr_eq]
    have hl := lex_open false false s
    exact trun_congr_open (L := openers s) (fun a ha => ih a (by omega)) inv_init (by simp [Buffer.open] at hl ⊢; exact hl)

end LatexAst.Ast1
