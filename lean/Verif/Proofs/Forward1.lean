import Verif.Proofs.Nest1
import Verif.Proofs.Tree
import Verif.Spec.WellFormed

/-!
# Running the stage-1 parser forward on printed documents
-/

namespace LatexAst.Ast1
open Spec

/-- Several successful token steps. -/
inductive Steps (rec : Str → Res (List Chunk)) :
    List Tok → Buffer → Nat → Nat → List Chunk → Buffer → Nat → Nat → Prop
  | nil {b bl ln} : Steps rec [] b bl ln [] b bl ln
  | cons {t ts b bl ln new b' bl' new2 b2 bl2 ln2}
      (h : tstep rec b bl (lnAfter ln t) t = .ok (new, b', bl'))
      (hs : Steps rec ts b' bl' (lnAfter ln t) new2 b2 bl2 ln2) :
      Steps rec (t :: ts) b bl ln (new ++ new2) b2 bl2 ln2

theorem Steps.trun {rec ts b bl ln new b' bl' ln'} (h : Steps rec ts b bl ln new b' bl' ln')
    (us : List Tok) {cs} (hu : trun rec us b' bl' ln' = .ok cs) :
    trun rec (ts ++ us) b bl ln = .ok (new ++ cs) := by
  induction h with
  | nil => simpa using hu
  | cons h hs ih =>
    simp only [List.cons_append, Ast1.trun, h, ih hu, List.append_assoc]

theorem Steps.append {rec ts us b bl ln new b' bl' ln' new2 b2 bl2 ln2}
    (h : Steps rec ts b bl ln new b' bl' ln') (h2 : Steps rec us b' bl' ln' new2 b2 bl2 ln2) :
    Steps rec (ts ++ us) b bl ln (new ++ new2) b2 bl2 ln2 := by
  induction h with
  | nil => simpa using h2
  | cons h hs ih =>
    rw [List.append_assoc]
    exact .cons h (ih h2)

theorem Steps.one {rec t b bl ln new b' bl'}
    (h : tstep rec b bl (lnAfter ln t) t = .ok (new, b', bl')) :
    Steps rec [t] b bl ln new b' bl' (lnAfter ln t) := by
  simpa using Steps.cons h .nil

/-! ## Clean strings -/

theorem Clean.append {a b : Str} (ha : Clean a) (hb : Clean b) : Clean (a ++ b) := by
  induction hb with
  | nil => simpa using ha
  | esc c h ih => rw [← List.append_assoc]; exact .esc c ih
  | char c h h1 h2 ih => rw [← List.append_assoc]; exact .char c ih h1 h2

theorem clean_char {c : Char} (h1 : c ≠ '%') (h2 : c ≠ '\\') : Clean [c] := .char c .nil h1 h2
theorem clean_esc (c : Char) : Clean ['\\', c] := .esc c .nil

theorem not_special {c : Char} (h : ¬ Special c) :
    c ≠ '%' ∧ c ≠ '\\' ∧ ScopeVariant.fromOpening c = none ∧ ScopeVariant.fromClosing c = none := by
  simp only [Special, List.mem_cons, List.not_mem_nil, or_false] at h
  unfold ScopeVariant.fromOpening ScopeVariant.fromClosing
  grind

theorem clean_sanitised {s : Str} (h : Sanitised s) : Clean s := by
  induction s with
  | nil => exact .nil
  | cons c s ih =>
    have hc := not_special (h c (by simp))
    exact (clean_char hc.1 hc.2.1).append (ih fun x hx => h x (by simp [hx]))

theorem ws_not_special {c : Char} (h : isWhitespace c = true) : ¬ Special c := by
  simp only [Special, List.mem_cons, List.not_mem_nil, or_false]
  rintro (rfl | rfl | rfl | rfl | rfl | rfl | rfl | rfl) <;> revert h <;> decide

theorem blank_sanitised {s : Str} (h : Blank s) : Sanitised s := fun c hc => ws_not_special (h c hc)

theorem alpha_not_special {c : Char} (h : isAsciiAlphabetic c = true) : ¬ Special c := by
  simp only [Special, List.mem_cons, List.not_mem_nil, or_false]
  rintro (rfl | rfl | rfl | rfl | rfl | rfl | rfl | rfl) <;> revert h <;> decide

theorem alpha_not_ws {c : Char} (h : isAsciiAlphabetic c = true) : isWhitespace c = false := by
  simp [isAsciiAlphabetic] at h
  simp [isWhitespace]
  omega

theorem lex_clean_cons_esc (c : Char) (s : Str) :
    lex false false ('\\' :: c :: s) = (true, c) :: lex false false s := by rw [lex_bs, lex_esc]

theorem opening_clean (v : ScopeVariant) : v.opening ≠ '%' ∧ v.opening ≠ '\\' := by
  cases v <;> decide
theorem closing_clean (v : ScopeVariant) : v.closing ≠ '%' ∧ v.closing ≠ '\\' := by
  cases v <;> decide

theorem lnAfter_char (ln : Nat) (e : Bool) (c : Char) : lnAfter ln (e, c) = ln + newlines [c] :=
  lnAfter_eq ln (e, c)

/-! ## Strings that pass unchanged through an open scope -/

def Trans (s : Str) : Prop := ∀ rec a d bl ln, 1 ≤ d →
  Steps rec (lex false false s) (.scope a .curly d) bl ln [] (.scope (a ++ s) .curly d) bl (ln + newlines s)

theorem trans_nil : Trans [] := by
  intro rec a d bl ln _
  simpa [lex, newlines_nil] using Steps.nil

theorem Trans.append {s t : Str} (hc : Clean s) (hs : Trans s) (ht : Trans t) : Trans (s ++ t) := by
  intro rec a d bl ln hd
  rw [lex_clean_append hc, newlines_append, ← Nat.add_assoc, ← List.append_assoc]
  exact (hs rec a d bl ln hd).append (ht rec (a ++ s) d bl _ hd)

theorem trans_esc (c : Char) : Trans ['\\', c] := by
  intro rec a d bl ln hd
  rw [lex_clean_cons_esc]
  have : ln + newlines ['\\', c] = lnAfter ln (true, c) := by
    rw [newlines_esc, lnAfter_char, newlines_single]
  rw [this]
  exact Steps.one (by simp [tstep])

theorem trans_char {c : Char} (h1 : c ≠ '%') (h2 : c ≠ '\\') (h3 : c ≠ '{') (h4 : c ≠ '}') :
    Trans [c] := by
  intro rec a d bl ln hd
  rw [lex_char h1 h2, ← lnAfter_char ln false]
  exact Steps.one (by simp [tstep, ScopeVariant.opening, ScopeVariant.closing, h3.symm, h4.symm])

theorem trans_text {s : Str} (h : ∀ x ∈ s, x ∉ ['\\', '%', '{', '[', '(']) (h4 : '}' ∉ s) : Trans s := by
  induction s with
  | nil => exact trans_nil
  | cons c s ih =>
    have hc := h c (by simp)
    simp only [List.mem_cons, List.not_mem_nil, or_false, not_or] at hc h4
    exact Trans.append (s := [c]) (clean_char hc.2.1 hc.1)
      (trans_char hc.2.1 hc.1 hc.2.2.1 (fun h => h4.1 h.symm))
      (ih (fun x hx => h x (by simp [hx])) h4.2)

theorem trans_sanitised {s : Str} (h : Sanitised s) : Trans s := by
  refine trans_text (fun x hx => ?_) (fun hx => h _ hx (by simp [Special]))
  have := h x hx
  simp only [Special, List.mem_cons, List.not_mem_nil, or_false] at this ⊢
  grind

theorem trans_wrap {s : Str} (w : ScopeVariant) (hc : Clean s) (hs : Trans s) :
    Trans (w.opening :: (s ++ [w.closing])) := by
  by_cases hw : w = .curly
  · subst hw
    intro rec a d bl ln hd
    rw [show ScopeVariant.curly.opening = '{' from rfl, show ScopeVariant.curly.closing = '}' from rfl,
      lex_char (by decide) (by decide), lex_clean_append hc, lex_char (by decide) (by decide)]
    have hn : newlines ('{' :: (s ++ ['}'])) = newlines s := by
      rw [newlines_cons_of_ne (by decide), newlines_append]; rfl
    have l1 : lnAfter ln (false, '{') = ln := rfl
    have l2 : lnAfter (ln + newlines s) (false, '}') = ln + newlines s := rfl
    rw [hn]
    have s1 := Steps.one (rec := rec) (t := (false, '{')) (b := .scope a .curly d) (bl := bl) (ln := ln)
        (new := []) (b' := .scope (a ++ ['{']) .curly (d + 1)) (bl' := bl)
        (by simp [tstep, ScopeVariant.opening])
    rw [l1] at s1
    have s2 := hs rec (a ++ ['{']) (d + 1) bl ln (by omega)
    have s3 := Steps.one (rec := rec) (t := (false, '}')) (b := .scope (a ++ ['{'] ++ s) .curly (d + 1))
        (bl := bl) (ln := ln + newlines s)
        (new := []) (b' := .scope (a ++ ['{'] ++ s ++ ['}']) .curly d) (bl' := bl)
        (by simp [tstep, ScopeVariant.opening, ScopeVariant.closing]; omega)
    rw [l2] at s3
    have := (s1.append s2).append s3
    simpa [lex] using this
  · have ho := opening_clean w
    have hcl := closing_clean w
    refine Trans.append (s := [w.opening]) (clean_char ho.1 ho.2)
      (trans_char ho.1 ho.2 ?_ ?_) (Trans.append hc hs (trans_char hcl.1 hcl.2 ?_ ?_)) <;>
      cases w <;> first | exact absurd rfl hw | decide

/-! ## Strings that pass unchanged through an argument -/

def ArgFree (v : ScopeVariant) (s : Str) : Prop := ∀ rec l sc a p d bl ln,
  Steps rec (lex false false s) (.command l (sc ++ [(a, v, p)]) (d + 1) []) bl ln []
    (.command l (sc ++ [(a ++ s, v, p)]) (d + 1) []) bl (ln + newlines s)

theorem argFree_nil {v} : ArgFree v [] := by
  intro rec l sc a p d bl ln
  simpa [lex, newlines_nil] using Steps.nil

theorem ArgFree.append {v} {s t : Str} (hc : Clean s) (hs : ArgFree v s) (ht : ArgFree v t) :
    ArgFree v (s ++ t) := by
  intro rec l sc a p d bl ln
  rw [lex_clean_append hc, newlines_append, ← Nat.add_assoc, ← List.append_assoc]
  exact (hs rec l sc a p d bl ln).append (ht rec l sc (a ++ s) p d bl _)

theorem argFree_esc {v} (c : Char) : ArgFree v ['\\', c] := by
  intro rec l sc a p d bl ln
  rw [lex_clean_cons_esc]
  have : ln + newlines ['\\', c] = lnAfter ln (true, c) := by
    rw [newlines_esc, lnAfter_char, newlines_single]
  rw [this]
  exact Steps.one (by simp [tstep, pushLastContent_snoc, lex])

theorem argFree_char {v} {c : Char} (h1 : c ≠ '%') (h2 : c ≠ '\\') (h3 : c ≠ v.opening)
    (h4 : c ≠ v.closing) : ArgFree v [c] := by
  intro rec l sc a p d bl ln
  rw [lex_char h1 h2, ← lnAfter_char ln false]
  exact Steps.one (by simp [tstep, pushLastContent_snoc, h3.symm, h4.symm])

theorem argFree_sanitised {v} {s : Str} (h : Sanitised s) : ArgFree v s := by
  induction s with
  | nil => exact argFree_nil
  | cons c s ih =>
    have hc := not_special (h c (by simp))
    exact ArgFree.append (s := [c]) (clean_char hc.1 hc.2.1)
      (argFree_char hc.1 hc.2.1 (fromOpening_none hc.2.2.1 v) (fromClosing_none hc.2.2.2 v))
      (ih fun x hx => h x (by simp [hx]))

theorem clean_text {s : Str} (h : ∀ x ∈ s, x ∉ ['\\', '%', '{', '[', '(']) : Clean s := by
  induction s with
  | nil => exact .nil
  | cons c s ih =>
    have hc := h c (by simp)
    simp only [List.mem_cons, List.not_mem_nil, or_false, not_or] at hc
    exact (clean_char hc.2.1 hc.1).append (ih fun x hx => h x (by simp [hx]))

theorem textChar_not {x : Char} (h : x ∉ ['\\', '%', '{', '[', '(']) :
    x ≠ '%' ∧ x ≠ '\\' ∧ ScopeVariant.fromOpening x = none := by
  simp only [List.mem_cons, List.not_mem_nil, or_false, not_or] at h
  unfold ScopeVariant.fromOpening
  grind

theorem argFree_text {v} {s : Str} (h : ∀ x ∈ s, x ∉ ['\\', '%', '{', '[', '('])
    (h4 : v.closing ∉ s) : ArgFree v s := by
  induction s with
  | nil => exact argFree_nil
  | cons c s ih =>
    have hc := textChar_not (h c (by simp))
    simp only [List.mem_cons, not_or] at h4
    exact ArgFree.append (s := [c]) (clean_char hc.1 hc.2.1)
      (argFree_char hc.1 hc.2.1 (fromOpening_none hc.2.2 v) (fun h => h4.1 h.symm))
      (ih (fun x hx => h x (by simp [hx])) h4.2)

theorem argFree_wrap {v} {s : Str} {w : ScopeVariant} (hw : w ≠ v) (hc : Clean s) (hs : ArgFree v s) :
    ArgFree v (w.opening :: (s ++ [w.closing])) := by
  have ho := opening_clean w
  have hcl := closing_clean w
  refine ArgFree.append (s := [w.opening]) (clean_char ho.1 ho.2)
    (argFree_char ho.1 ho.2 (fun h => hw (opening_inj.1 h)) (opening_ne_closing _ _)) ?_
  exact ArgFree.append hc hs (argFree_char hcl.1 hcl.2 (opening_ne_closing _ _).symm
    (fun h => hw (closing_inj.1 h)))

/-! ## Printed well-formed nodes -/

theorem letterName_split {l : Str} (h : LetterName l) :
    ∃ c r, l = c :: r ∧ isAsciiAlphabetic c = true ∧ Sanitised r ∧ ∀ x ∈ r, isWhitespace x = false := by
  obtain ⟨c, r, rfl, ha, hr⟩ := h
  exact ⟨c, r, rfl, ha, fun x hx => (hr x hx).2, fun x hx => (hr x hx).1⟩

theorem clean_wrap {s : Str} (w : ScopeVariant) (hc : Clean s) : Clean (w.opening :: (s ++ [w.closing])) := by
  have ho := opening_clean w
  have hcl := closing_clean w
  exact (clean_char ho.1 ho.2).append (hc.append (clean_char hcl.1 hcl.2))

/-- The shape of a label, enough for printing. -/
theorem label_syn {l : Str} {args} (h : NodeCanon (.command (.mk l args))) :
    ∃ c r, l = c :: r ∧ Sanitised r := by
  rcases h with ⟨h, _⟩ | ⟨c, rfl, _⟩
  · obtain ⟨c, r, rfl, _, hr, _⟩ := letterName_split h
    exact ⟨c, r, rfl, hr⟩
  · exact ⟨c, [], rfl, by simp [Sanitised]⟩

theorem prec_blank {l : Str} {args} (h : NodeCanon (.command (.mk l args))) :
    ∀ p s, (p, s) ∈ args → Blank p := by
  rintro p ⟨inner, sv⟩ hm
  rcases h with ⟨_, h⟩ | ⟨c, _, _, rfl⟩
  · exact (h p inner sv hm).1
  · cases hm

mutual
theorem Chunk.clean : ∀ c : Chunk, c.All NodeCanon → Clean c.display
  | .mk _ v, h => ChunkVariant.clean v h
theorem ChunkVariant.clean : ∀ v : ChunkVariant, v.All NodeCanon → Clean v.display
  | .text s, h => clean_text h.2
  | .scope (.mk cs sv), h => clean_wrap sv (displayChunks_clean cs h.2)
  | .command (.mk l args), h => by
    obtain ⟨c, r, rfl, hr⟩ := label_syn h.1
    have hcl : Clean ('\\' :: c :: r) := (clean_esc c).append (clean_sanitised hr)
    exact hcl.append (displayArgs_clean args (prec_blank h.1) h.2)
theorem displayChunks_clean : ∀ cs : List Chunk, AllChunks NodeCanon cs → Clean (displayChunks cs)
  | [], _ => .nil
  | c :: cs, h => (Chunk.clean c h.1).append (displayChunks_clean cs h.2)
theorem displayArgs_clean : ∀ args : List (Str × Scope), (∀ p s, (p, s) ∈ args → Blank p) →
    AllArgs NodeCanon args → Clean (displayArgs args)
  | [], _, _ => .nil
  | (p, .mk cs sv) :: r, hp, h => by
    have h2 := displayArgs_clean r (fun p s hm => hp p s (by simp [hm])) h.2
    have hb := blank_sanitised (hp p (.mk cs sv) (by simp))
    exact (clean_sanitised hb).append ((clean_wrap sv (displayChunks_clean cs h.1)).append h2)
end

/-- No closing bracket of kind `k` in a text. -/
def NoCl (k : ScopeVariant) : ChunkVariant → Prop
  | .text t => k.closing ∉ t
  | _ => True

mutual
theorem Chunk.trans : ∀ c : Chunk, c.All NodeCanon → c.All (NoCl .curly) → Trans c.display
  | .mk _ v, h, hk => ChunkVariant.trans v h hk
theorem ChunkVariant.trans : ∀ v : ChunkVariant, v.All NodeCanon → v.All (NoCl .curly) → Trans v.display
  | .text s, h, hk => trans_text h.2 hk
  | .scope (.mk cs sv), h, hk =>
    trans_wrap sv (displayChunks_clean cs h.2) (displayChunks_trans cs h.2 hk.2)
  | .command (.mk l args), h, hk => by
    obtain ⟨c, r, rfl, hr⟩ := label_syn h.1
    have hcl : Clean ('\\' :: c :: r) := (clean_esc c).append (clean_sanitised hr)
    have htr : Trans ('\\' :: c :: r) := Trans.append (s := ['\\', c]) (clean_esc c) (trans_esc c) (trans_sanitised hr)
    exact Trans.append hcl htr (displayArgs_trans args (prec_blank h.1) h.2 hk.2)
theorem displayChunks_trans : ∀ cs : List Chunk, AllChunks NodeCanon cs → AllChunks (NoCl .curly) cs →
    Trans (displayChunks cs)
  | [], _, _ => trans_nil
  | c :: cs, h, hk =>
    Trans.append (Chunk.clean c h.1) (Chunk.trans c h.1 hk.1) (displayChunks_trans cs h.2 hk.2)
theorem displayArgs_trans : ∀ args : List (Str × Scope), (∀ p s, (p, s) ∈ args → Blank p) →
    AllArgs NodeCanon args → AllArgs (NoCl .curly) args → Trans (displayArgs args)
  | [], _, _, _ => trans_nil
  | (p, .mk cs sv) :: r, hp, h, hk => by
    have h2 := displayArgs_trans r (fun p s hm => hp p s (by simp [hm])) h.2 hk.2
    have hb := blank_sanitised (hp p (.mk cs sv) (by simp))
    have hw := clean_wrap sv (displayChunks_clean cs h.1)
    have ht := trans_wrap sv (displayChunks_clean cs h.1) (displayChunks_trans cs h.1 hk.1)
    exact Trans.append (clean_sanitised hb) (trans_sanitised hb) (Trans.append hw ht h2)
end

/-- No bracket of kind `k` on the node itself. -/
def NoBr (k : ScopeVariant) : ChunkVariant → Prop
  | .text t => k.closing ∉ t
  | .scope (.mk _ sv) => sv ≠ k
  | .command (.mk _ args) => ∀ prec inner sv, (prec, Scope.mk inner sv) ∈ args → sv ≠ k

mutual
theorem Chunk.argFree {k} : ∀ c : Chunk, c.All NodeCanon → c.All (NoBr k) → ArgFree k c.display
  | .mk _ v, h, hk => ChunkVariant.argFree v h hk
theorem ChunkVariant.argFree {k} : ∀ v : ChunkVariant, v.All NodeCanon → v.All (NoBr k) →
    ArgFree k v.display
  | .text s, h, hk => argFree_text h.2 hk
  | .scope (.mk cs sv), h, hk => by
    have := displayChunks_argFree cs h.2 hk.2
    simp only [ChunkVariant.display, Scope.display]
    exact argFree_wrap hk.1 (displayChunks_clean cs h.2) this
  | .command (.mk l args), h, hk => by
    obtain ⟨c, r, rfl, hr⟩ := label_syn h.1
    have ha := displayArgs_argFree args (prec_blank h.1)
      (fun p inner sv hm => hk.1 p inner sv hm) h.2 hk.2
    have hcl : Clean ('\\' :: c :: r) := (clean_esc c).append (clean_sanitised hr)
    have htr : ArgFree k ('\\' :: c :: r) :=
      ArgFree.append (s := ['\\', c]) (clean_esc c) (argFree_esc c) (argFree_sanitised hr)
    exact ArgFree.append hcl htr ha
theorem displayChunks_argFree {k} : ∀ cs : List Chunk, AllChunks NodeCanon cs → AllChunks (NoBr k) cs →
    ArgFree k (displayChunks cs)
  | [], _, _ => argFree_nil
  | c :: cs, h, hk =>
    ArgFree.append (Chunk.clean c h.1) (Chunk.argFree c h.1 hk.1) (displayChunks_argFree cs h.2 hk.2)
theorem displayArgs_argFree {k} : ∀ args : List (Str × Scope), (∀ p s, (p, s) ∈ args → Blank p) →
    (∀ p inner sv, (p, Scope.mk inner sv) ∈ args → sv ≠ k) →
    AllArgs NodeCanon args → AllArgs (NoBr k) args → ArgFree k (displayArgs args)
  | [], _, _, _, _ => argFree_nil
  | (p, .mk cs sv) :: r, hp, hs, h, hk => by
    have h1 := displayChunks_argFree cs h.1 hk.1
    have h2 := displayArgs_argFree r (fun p s hm => hp p s (by simp [hm]))
      (fun p i s hm => hs p i s (by simp [hm])) h.2 hk.2
    have hb := blank_sanitised (hp p (.mk cs sv) (by simp))
    have hc := displayChunks_clean cs h.1
    simp only [displayArgs, Scope.display]
    have hw := clean_wrap sv hc
    have ht := argFree_wrap (hs p cs sv (by simp)) hc h1
    exact ArgFree.append (clean_sanitised hb) (argFree_sanitised hb) (ArgFree.append hw ht h2)
end

theorem allNoCl {k : ScopeVariant} {cs : List Chunk} (h : NoCloserOf k cs) : AllChunks (NoCl k) cs := by
  rw [allChunks_iff]
  intro v hv
  cases v with
  | text t => exact h t hv
  | scope => trivial
  | command => trivial

theorem allNoBr {k : ScopeVariant} {cs : List Chunk} (h : NoGroupOf k cs) (h' : NoCloserOf k cs) :
    AllChunks (NoBr k) cs := by
  rw [allChunks_iff]
  intro v hv
  cases v with
  | text t => exact h' t hv
  | scope s => obtain ⟨i, sv⟩ := s; exact h.1 i sv hv
  | command c => obtain ⟨l, args⟩ := c; exact fun p i sv hm => h.2 l args p i sv hv hm

/-! ## Pending output -/

/-- The buffer holds what has been printed last; `e` are the chunks it stands for. -/
inductive Pend (rec : Str → Res (List Chunk)) :
    After → Buffer → Nat → Nat → List Chunk → Prop
  | plain {n} : Pend rec .plain (.text []) n n []
  | text {a bl} (h : a ≠ []) : Pend rec .text (.text a) bl (bl + newlines a) [.mk bl (.text a)]
  | bare {l bl} : Pend rec .bare (.command l [] 0 []) bl bl [.mk bl (.command (.mk l []))]
  | withArgs {l sc args bl ln} (h : evalArgs rec sc = .ok args) (hs : sc ≠ []) :
      Pend rec .withArgs (.command l sc 0 []) bl ln [.mk bl (.command (.mk l args))]
  | blank {l sc args bl ln tr} (h : evalArgs rec sc = .ok args) (ht : tr ≠ []) :
      Pend rec .blank (.command l sc 0 tr) bl (ln + newlines tr)
        [.mk bl (.command (.mk l args)), .mk ln (.text tr)]

/-- Starting a command flushes what is pending. -/
theorem Pend.esc {rec A b bl ln e c} (h : Pend rec A b bl ln e)
    (hc : A = .plain ∨ A = .text ∨ SymbolAfterCommand c) :
    tstep rec b bl (lnAfter ln (true, c)) (true, c) =
      .ok (e ++ startC c (lnAfter ln (true, c)), startB c, lnAfter ln (true, c)) := by
  have hs : A ≠ .plain → A ≠ .text → ScopeVariant.fromOpening c = none ∧ isWhitespace c = false ∧
      lnAfter ln (true, c) = ln := by
    intro h1 h2
    rcases hc with h | h | h
    · exact absurd h h1
    · exact absurd h h2
    · refine ⟨?_, h.1, ?_⟩
      · have := h.2
        simp only [List.mem_cons, List.not_mem_nil, or_false] at this
        unfold ScopeVariant.fromOpening; grind
      · rw [lnAfter_char, newlines_single, if_neg (nonws_ne_nl h.1)]; rfl
  cases h with
  | plain => simp [tstep, textC]
  | text h => simp [tstep, textC, h]
  | bare =>
    obtain ⟨h1, h2, h3⟩ := hs (by simp) (by simp)
    simp [tstep, textC, h1, h2, flushC, evalArgs]
  | withArgs h hs' =>
    obtain ⟨h1, h2, h3⟩ := hs (by simp) (by simp)
    simp [tstep, textC, h1, h2, flushC, h]
  | blank h ht =>
    obtain ⟨h1, h2, h3⟩ := hs (by simp) (by simp)
    simp [tstep, textC, h1, h2, h3, flushC, h, ht]

/-- At the end of input everything pending comes out. -/
theorem Pend.finish {rec A b bl ln e} (h : Pend rec A b bl ln e) (hn : A ≠ .blank) :
    tfinish rec b bl ln = .ok e := by
  cases h with
  | plain => simp [tfinish, textC]
  | text h => simp [tfinish, textC, h]
  | bare => simp [tfinish, textC, flushC, evalArgs]
  | withArgs h hs => simp [tfinish, textC, flushC, h]
  | blank h ht => exact absurd rfl hn

/-- ... a blank text numbered by its last line. -/
theorem Pend.finish_blank {rec b bl ln e} (h : Pend rec .blank b bl ln e) :
    ∃ init l t, e = init ++ [.mk l (.text t)] ∧
      tfinish rec b bl ln = .ok (init ++ [.mk (l + newlines t) (.text t)]) := by
  cases h with
  | @blank l sc args bl ln tr h ht =>
    exact ⟨[.mk bl (.command (.mk l args))], ln, tr, rfl, by simp [tfinish, textC, flushC, h, ht]⟩

theorem steps_text {rec s} (hs : ∀ x ∈ s, x ∉ ['\\', '%', '{', '[', '(']) (a : Str) (bl ln : Nat) :
    Steps rec (lex false false s) (.text a) bl ln [] (.text (a ++ s)) bl (ln + newlines s) := by
  induction s generalizing a ln with
  | nil => simpa [lex, newlines_nil] using Steps.nil
  | cons c s ih =>
    obtain ⟨h1, h2, h3⟩ := textChar_not (hs c (by simp))
    rw [lex_char h1 h2]
    have := ih (fun x hx => hs x (by simp [hx])) (a ++ [c]) (lnAfter ln (false, c))
    have hn : ln + newlines (c :: s) = lnAfter ln (false, c) + newlines s := by
      rw [lnAfter_char, show c :: s = [c] ++ s from rfl, newlines_append]; omega
    rw [hn, show a ++ c :: s = a ++ [c] ++ s by simp]
    exact Steps.cons (new := []) (by simp [tstep, h3]) this

theorem steps_blank {rec w} (hw : Blank w) (l : Str) (sc tr) (bl ln : Nat) :
    Steps rec (lex false false w) (.command l sc 0 tr) bl ln [] (.command l sc 0 (tr ++ w)) bl
      (ln + newlines w) := by
  induction w generalizing tr ln with
  | nil => simpa [lex, newlines_nil] using Steps.nil
  | cons c s ih =>
    have hc := hw c (by simp)
    obtain ⟨h1, h2, h3, _⟩ := not_special (ws_not_special hc)
    rw [lex_char h1 h2]
    have := ih (fun x hx => hw x (by simp [hx])) (tr ++ [c]) (lnAfter ln (false, c))
    have hn : ln + newlines (c :: s) = lnAfter ln (false, c) + newlines s := by
      rw [lnAfter_char, show c :: s = [c] ++ s from rfl, newlines_append]; omega
    rw [hn, show tr ++ c :: s = tr ++ [c] ++ s by simp]
    exact Steps.cons (new := []) (by simp [tstep, h3, hc]) this

theorem blank_split (t : Str) : ∃ w r, t = w ++ r ∧ Blank w ∧
    (r = [] ∨ ∃ x r', r = x :: r' ∧ isWhitespace x = false) := by
  induction t with
  | nil => exact ⟨[], [], rfl, by simp [Blank], .inl rfl⟩
  | cons c t ih =>
    cases hc : isWhitespace c
    · exact ⟨[], c :: t, rfl, by simp [Blank], .inr ⟨c, t, rfl, hc⟩⟩
    · obtain ⟨w, r, rfl, hw, hr⟩ := ih
      refine ⟨c :: w, r, rfl, ?_, hr⟩
      intro x hx; rw [List.mem_cons] at hx
      rcases hx with rfl | hx
      · exact hc
      · exact hw x hx

theorem steps_text_after_command {rec l sc args t bl ln} (ha : evalArgs rec sc = .ok args)
    (ht : ∀ x ∈ t, x ∉ ['\\', '%', '{', '[', '(']) (hb : ¬ Blank t)
    (hf : sc = [] → ∃ c r, t = c :: r ∧ isWhitespace c = true)
    (hf' : ∀ c r, t = c :: r → isWhitespace c = true ∨ c ∉ ['}', ']', ')']) :
    Steps rec (lex false false t) (.command l sc 0 []) bl ln [.mk bl (.command (.mk l args))]
      (.text t) ln (ln + newlines t) := by
  obtain ⟨w, r, rfl, hw, rfl | ⟨x, r', rfl, hx⟩⟩ := blank_split t
  · simp only [List.append_nil] at hb; exact absurd hw hb
  · obtain ⟨h1, h2, h3⟩ := textChar_not (ht x (by simp))
    have hwc := clean_sanitised (blank_sanitised hw)
    rw [lex_clean_append hwc, lex_char h1 h2]
    have s1 := steps_blank (rec := rec) hw l sc [] bl ln
    have hnl := nonws_ne_nl hx
    have l1 : lnAfter (ln + newlines w) (false, x) = ln + newlines w := by
      rw [lnAfter_char, newlines_single, if_neg hnl]; rfl
    have s2 : Steps rec [(false, x)] (.command l sc 0 ([] ++ w)) bl (ln + newlines w)
        [.mk bl (.command (.mk l args))] (.text (w ++ [x])) ln (ln + newlines w) := by
      have : tstep rec (.command l sc 0 ([] ++ w)) bl (lnAfter (ln + newlines w) (false, x)) (false, x) =
          .ok ([.mk bl (.command (.mk l args))], .text (w ++ [x]), ln) := by
        rw [l1]
        cases w with
        | nil =>
          have hsc : sc ≠ [] := by
            intro h; obtain ⟨c, r, he, hc⟩ := hf h
            simp at he; rw [he.1] at hx; rw [hx] at hc; cases hc
          have h4 : ScopeVariant.fromClosing x = none := by
            rcases hf' x r' rfl with h | h
            · rw [hx] at h; cases h
            · simp only [List.mem_cons, List.not_mem_nil, or_false, not_or] at h
              unfold ScopeVariant.fromClosing; grind
          simp [tstep, h3, h4, hx, hsc, flushC, ha]
        | cons y w => simp [tstep, h3, hx, flushC, ha]
      have := Steps.one this
      rwa [l1] at this
    have s3 := steps_text (rec := rec) (s := r') (fun c hc => ht c (by simp [hc])) (w ++ [x]) ln (ln + newlines w)
    have := s1.append (s2.append s3)
    have hn : newlines (w ++ x :: r') = newlines w + newlines r' := by
      rw [newlines_append, newlines_cons_of_ne hnl]
    rw [hn, ← Nat.add_assoc]
    simpa using this

/-! ### Commands -/

theorem steps_label {rec r} (hr : Sanitised r) (hw : ∀ x ∈ r, isWhitespace x = false) (l : Str)
    (bl ln : Nat) :
    Steps rec (lex false false r) (.command l [] 0 []) bl ln [] (.command (l ++ r) [] 0 []) bl ln := by
  induction r generalizing l with
  | nil => simpa [lex] using Steps.nil
  | cons c s ih =>
    have hc := hw c (by simp)
    obtain ⟨h1, h2, h3, h4⟩ := not_special (hr c (by simp))
    rw [lex_char h1 h2]
    have := ih (fun x hx => hr x (by simp [hx])) (fun x hx => hw x (by simp [hx])) (l ++ [c])
    have hl : lnAfter ln (false, c) = ln := by
      rw [lnAfter_char, newlines_single, if_neg (nonws_ne_nl hc)]; rfl
    rw [show l ++ c :: s = l ++ [c] ++ s by simp]
    refine Steps.cons (new := []) (b' := .command (l ++ [c]) [] 0 []) (bl' := bl) ?_ (by rw [hl]; exact this)
    simp [tstep, h3, h4, hc]

/-- The buffered form of printed arguments. -/
def bufArgs (args : List (Str × Scope)) : List ScopeBuf :=
  args.map fun x => match x with | (p, .mk cs sv) => (displayChunks cs, sv, p)

theorem evalArgs_bufArgs {rec : Str → Res (List Chunk)} {args}
    (h : ∀ p inner sv, (p, Scope.mk inner sv) ∈ args → rec (displayChunks inner) = .ok inner) :
    evalArgs rec (bufArgs args) = .ok args := by
  induction args with
  | nil => rfl
  | cons x args ih =>
    obtain ⟨p, ⟨cs, sv⟩⟩ := x
    have h1 := h p cs sv (by simp)
    have h2 := ih fun p i s hm => h p i s (by simp [hm])
    simp only [bufArgs] at h2
    simp [bufArgs, evalArgs, h1, h2]

theorem steps_args {rec args} (l : Str) (sc : List ScopeBuf) (bl ln : Nat)
    (hp : ∀ p s, (p, s) ∈ args → Blank p)
    (hc : ∀ p inner sv, (p, Scope.mk inner sv) ∈ args →
      Clean (displayChunks inner) ∧ ArgFree sv (displayChunks inner)) :
    Steps rec (lex false false (displayArgs args)) (.command l sc 0 []) bl ln []
      (.command l (sc ++ bufArgs args) 0 []) bl (ln + newlines (displayArgs args)) := by
  induction args generalizing sc ln with
  | nil => simpa [lex, displayArgs, newlines_nil, bufArgs] using Steps.nil
  | cons x args ih =>
    obtain ⟨p, ⟨cs, sv⟩⟩ := x
    obtain ⟨hcl, hfree⟩ := hc p cs sv (by simp)
    have hb := hp p (.mk cs sv) (by simp)
    have hpc := clean_sanitised (blank_sanitised hb)
    have ho := opening_clean sv
    have hcl' := closing_clean sv
    have hno : newlines [sv.opening] = 0 := by cases sv <;> rfl
    have hnc : newlines [sv.closing] = 0 := by cases sv <;> rfl
    simp only [displayArgs, Scope.display, List.cons_append, List.append_assoc, List.nil_append]
    rw [lex_clean_append hpc, lex_char ho.1 ho.2, lex_clean_append hcl, lex_char hcl'.1 hcl'.2]
    have s1 := steps_blank (rec := rec) hb l sc [] bl ln
    have l1 : lnAfter (ln + newlines p) (false, sv.opening) = ln + newlines p := by
      rw [lnAfter_char, hno]; rfl
    have s2 : Steps rec [(false, sv.opening)] (.command l sc 0 ([] ++ p)) bl (ln + newlines p) []
        (.command l (sc ++ [([], sv, p)]) 1 []) bl (ln + newlines p) := by
      have : tstep rec (.command l sc 0 ([] ++ p)) bl (lnAfter (ln + newlines p) (false, sv.opening))
          (false, sv.opening) = .ok ([], .command l (sc ++ [([], sv, p)]) 1 [], bl) := by
        simp [tstep, fromOpening_some_iff.2 rfl]
      have := Steps.one this
      rwa [l1] at this
    have s3 := hfree rec l sc [] p 0 bl (ln + newlines p)
    have l2 : lnAfter (ln + newlines p + newlines (displayChunks cs)) (false, sv.closing) =
        ln + newlines p + newlines (displayChunks cs) := by rw [lnAfter_char, hnc]; rfl
    have s4 : Steps rec [(false, sv.closing)] (.command l (sc ++ [([] ++ displayChunks cs, sv, p)]) 1 []) bl
        (ln + newlines p + newlines (displayChunks cs)) []
        (.command l (sc ++ [([] ++ displayChunks cs, sv, p)]) 0 []) bl
        (ln + newlines p + newlines (displayChunks cs)) := by
      have hne := opening_ne_closing sv sv
      have := Steps.one (rec := rec) (t := (false, sv.closing))
        (b := .command l (sc ++ [([] ++ displayChunks cs, sv, p)]) 1 []) (bl := bl)
        (ln := ln + newlines p + newlines (displayChunks cs)) (new := [])
        (b' := .command l (sc ++ [([] ++ displayChunks cs, sv, p)]) 0 []) (bl' := bl)
        (by simp [tstep, hne])
      rwa [l2] at this
    have s5 := ih (sc ++ [(displayChunks cs, sv, p)]) (ln + newlines p + newlines (displayChunks cs))
      (fun p s hm => hp p s (by simp [hm])) (fun p i s hm => hc p i s (by simp [hm]))
    have := s1.append (s2.append (s3.append (s4.append s5)))
    have hn : newlines (p ++ sv.opening :: (displayChunks cs ++ sv.closing :: displayArgs args)) =
        newlines p + newlines (displayChunks cs) + newlines (displayArgs args) := by
      rw [show sv.opening :: (displayChunks cs ++ sv.closing :: displayArgs args) =
        [sv.opening] ++ (displayChunks cs ++ ([sv.closing] ++ displayArgs args)) by simp]
      simp only [newlines_append, hno, hnc]; omega
    rw [hn]
    simpa [bufArgs, Nat.add_assoc] using this

/-! ### One chunk -/

theorem newlines_label {l : Str} (h : LetterName l) : newlines l = 0 := by
  obtain ⟨c, r, rfl, ha, hr⟩ := h
  rw [newlines_eq_count, List.count_eq_zero]
  intro hm
  rw [List.mem_cons] at hm
  rcases hm with rfl | hm
  · revert ha; decide
  · have := (hr _ hm).1; revert this; decide

theorem not_letter_symbol {c : Char} (h : isAsciiAlphabetic c = false) : ¬ LetterName [c] := by
  rintro ⟨c', r, he, ha, _⟩
  simp at he; rw [← he.1, h] at ha; cases ha

/-- The command `\\`+newline is numbered one line late. -/
def symLate : ChunkVariant → Nat
  | .command (.mk l _) => if l = ['\n'] then 1 else 0
  | _ => 0

theorem pend_chunk {rec A b bl ln e v} (hp : Pend rec A b bl ln e) (hf : Fits A v)
    (hv : v.All NodeCanon)
    (hrec : ∀ inner sv, v = .scope (.mk inner sv) → rec (displayChunks inner) = .ok inner)
    (hrec' : ∀ l args p inner sv, v = .command (.mk l args) → (p, Scope.mk inner sv) ∈ args →
      rec (displayChunks inner) = .ok inner) :
    ∃ new b' bl' e', Steps rec (lex false false v.display) b bl ln new b' bl' (ln + newlines v.display) ∧
      Pend rec (A.next v) b' bl' (ln + newlines v.display) e' ∧
      new ++ e' = e ++ [.mk (ln + symLate v) v] := by
  cases v with
  | text t =>
    have ht : t ≠ [] ∧ ∀ x ∈ t, x ∉ ['\\', '%', '{', '[', '('] := hv
    simp only [ChunkVariant.display]
    cases hp with
    | plain =>
      refine ⟨[], _, _, _, steps_text ht.2 [] _ _, ?_, rfl⟩
      have : After.plain.next (.text t) = .text := by simp [After.next]
      rw [this]; exact .text ht.1
    | text h => exact absurd hf (by simp [Fits])
    | blank h h' => exact absurd hf (by simp [Fits])
    | @bare l bl =>
      by_cases hb : Blank t
      · refine ⟨[], _, _, [.mk bl (.command (.mk l [])), .mk bl (.text t)],
          steps_blank hb l [] [] bl bl, ?_, ?_⟩
        · have : After.bare.next (.text t) = .blank := by simp [After.next, hb]
          rw [this, List.nil_append]
          exact .blank (args := []) rfl ht.1
        · rfl
      · refine ⟨_, _, _, _, steps_text_after_command (l := l) (sc := []) (args := []) (bl := bl) (ln := bl)
          rfl ht.2 hb (fun _ => hf) (fun c r he => ?_), ?_, rfl⟩
        · obtain ⟨c', r', he', hw⟩ := hf
          rw [he] at he'; simp at he'; rw [he'.1]; exact .inl hw
        have : After.bare.next (.text t) = .text := by simp [After.next, hb]
        rw [this]; exact .text ht.1
    | @withArgs l sc args bl ln ha hs =>
      by_cases hb : Blank t
      · refine ⟨[], _, _, [.mk bl (.command (.mk l args)), .mk ln (.text t)],
          steps_blank hb l sc [] bl ln, ?_, ?_⟩
        · have : After.withArgs.next (.text t) = .blank := by simp [After.next, hb]
          rw [this, List.nil_append]
          exact .blank ha ht.1
        · rfl
      · refine ⟨_, _, _, _, steps_text_after_command (l := l) (bl := bl) (ln := ln)
          ha ht.2 hb (fun h => absurd h hs) (fun c r he => .inr (hf c r he)), ?_, rfl⟩
        have : After.withArgs.next (.text t) = .text := by simp [After.next, hb]
        rw [this]; exact .text ht.1
  | scope s =>
    obtain ⟨inner, sv⟩ := s
    obtain ⟨hsv, hncl⟩ : sv = .curly ∧ NoCloserOf .curly inner := hv.1
    subst hsv
    have hA : A = .plain ∨ A = .text := by cases A <;> simpa [Fits] using hf
    have hcl := displayChunks_clean inner hv.2
    have htr := displayChunks_trans inner hv.2 (allNoCl hncl)
    have hr := hrec inner .curly rfl
    have ho := opening_clean ScopeVariant.curly
    have hcl' := closing_clean ScopeVariant.curly
    have hno : newlines [ScopeVariant.curly.opening] = 0 := by rfl
    have hnc : newlines [ScopeVariant.curly.closing] = 0 := by rfl
    simp only [ChunkVariant.display, Scope.display]
    rw [lex_char ho.1 ho.2, lex_clean_append hcl, lex_char hcl'.1 hcl'.2]
    have hn : newlines (ScopeVariant.curly.opening :: (displayChunks inner ++ [ScopeVariant.curly.closing])) = newlines (displayChunks inner) := by
      rw [show ScopeVariant.curly.opening :: (displayChunks inner ++ [ScopeVariant.curly.closing]) =
        [ScopeVariant.curly.opening] ++ (displayChunks inner ++ [ScopeVariant.curly.closing]) from rfl,
        newlines_append, newlines_append, hno, hnc]; omega
    rw [hn]
    have l1 : lnAfter ln (false, ScopeVariant.curly.opening) = ln := by rw [lnAfter_char, hno]; rfl
    have l2 : lnAfter (ln + newlines (displayChunks inner)) (false, ScopeVariant.curly.closing) =
        ln + newlines (displayChunks inner) := by rw [lnAfter_char, hnc]; rfl
    have s1 : Steps rec [(false, ScopeVariant.curly.opening)] b bl ln e (.scope [] ScopeVariant.curly 1) ln ln := by
      have : tstep rec b bl (lnAfter ln (false, ScopeVariant.curly.opening)) (false, ScopeVariant.curly.opening) =
          .ok (e, .scope [] ScopeVariant.curly 1, ln) := by
        rw [l1]
        cases hp with
        | plain => simp [tstep, fromOpening_some_iff.2 rfl, textC]
        | text h => simp [tstep, fromOpening_some_iff.2 rfl, textC, h]
        | bare => simp at hA
        | withArgs => simp at hA
        | blank => simp at hA
      have := Steps.one this
      rwa [l1] at this
    have s2 := htr rec [] 1 ln ln (by omega)
    have s3 : Steps rec [(false, ScopeVariant.curly.closing)] (.scope ([] ++ displayChunks inner) ScopeVariant.curly 1) ln
        (ln + newlines (displayChunks inner)) [.mk ln (.scope (.mk inner .curly))] (.text [])
        (ln + newlines (displayChunks inner)) (ln + newlines (displayChunks inner)) := by
      have hne := opening_ne_closing ScopeVariant.curly ScopeVariant.curly
      have := Steps.one (rec := rec) (t := (false, ScopeVariant.curly.closing)) (b := .scope ([] ++ displayChunks inner) ScopeVariant.curly 1)
        (bl := ln) (ln := ln + newlines (displayChunks inner))
        (new := [.mk ln (.scope (.mk inner .curly))]) (b' := .text [])
        (bl' := ln + newlines (displayChunks inner)) (by rw [l2]; simp [tstep, hne, hr])
      rwa [l2] at this
    refine ⟨_, _, _, [], (s1.append (s2.append s3)), ?_, ?_⟩
    · exact .plain
    · simp [symLate]
  | command c =>
    obtain ⟨l, args⟩ := c
    simp only [ChunkVariant.display, Command.display]
    have hwf := hv.1
    rcases hwf with ⟨hl, hargs⟩ | ⟨c, rfl, hna, rfl⟩
    · obtain ⟨c, r, rfl, ha, hr, hw⟩ := letterName_split hl
      have hnl := alpha_ne_nl ha
      have hlab := newlines_label hl
      rw [List.cons_append, lex_clean_cons_esc, lex_clean_append (clean_sanitised hr)]
      have l1 : lnAfter ln (true, c) = ln := by rw [lnAfter_char, newlines_single, if_neg hnl]; rfl
      have s1 : Steps rec [(true, c)] b bl ln e (.command [c] [] 0 []) ln ln := by
        have hsym : SymbolAfterCommand c := by
          refine ⟨alpha_not_ws ha, ?_⟩
          simp only [List.mem_cons, List.not_mem_nil, or_false]
          rintro (rfl | rfl | rfl) <;> revert ha <;> decide
        have := Steps.one (hp.esc (.inr (.inr hsym)))
        rw [l1] at this
        simpa [startC, startB, ha] using this
      have s2 := steps_label (rec := rec) hr hw [c] ln ln
      have s3 := steps_args (rec := rec) (args := args) ([c] ++ r) [] ln ln
        (fun p s hm => by obtain ⟨i, sv⟩ := s; exact (hargs p i sv hm).1)
        (fun p inner sv hm => by
          have hall : AllChunks NodeCanon inner := (allArgs_iff_forall args).1 hv.2 _ hm
          have hnb := allNoBr (hargs p inner sv hm).2.1 (hargs p inner sv hm).2.2
          exact ⟨displayChunks_clean inner hall, displayChunks_argFree inner hall hnb⟩)
      have hn : newlines ('\\' :: c :: (r ++ displayArgs args)) = newlines (displayArgs args) := by
        rw [newlines_cons_of_ne (by decide), show c :: (r ++ displayArgs args) = (c :: r) ++ displayArgs args from rfl,
          newlines_append, hlab]; omega
      rw [hn]
      refine ⟨_, _, _, [.mk ln (.command (.mk (c :: r) args))], s1.append (s2.append s3), ?_, by
        have : c :: r ≠ ['\n'] := by intro h; simp at h; exact hnl h.1
        simp [symLate, this]⟩
      have hev := evalArgs_bufArgs (rec := rec) (args := args)
        (fun p inner sv hm => hrec' _ _ p inner sv rfl hm)
      simp only [After.next, if_pos hl, List.nil_append, List.cons_append]
      by_cases hne : args = []
      · subst hne
        simp only [if_true, displayArgs, newlines_nil, Nat.add_zero, bufArgs, List.map_nil]
        exact .bare
      · rw [if_neg hne]
        refine .withArgs hev ?_
        simpa [bufArgs] using hne
    · have hA : A = .plain ∨ A = .text ∨ SymbolAfterCommand c := by
        have : LetterName [c] ∨ A = .plain ∨ A = .text ∨ ∀ x ∈ [c], SymbolAfterCommand x := by
          cases A <;> simpa [Fits] using hf
        rcases this with h | h | h | h
        · exact absurd h (not_letter_symbol hna)
        · exact .inl h
        · exact .inr (.inl h)
        · exact .inr (.inr (h c (by simp)))
      have s1 := Steps.one (hp.esc hA)
      simp only [displayArgs, List.append_nil]
      have hn : ln + newlines ['\\', c] = lnAfter ln (true, c) := by
        rw [newlines_esc, lnAfter_char, newlines_single]
      have hsl : ln + symLate (.command (.mk [c] [])) = lnAfter ln (true, c) := by
        rw [lnAfter_char, newlines_single]; simp [symLate]
      rw [hn, lex_clean_cons_esc, hsl]
      refine ⟨_, _, _, [], s1, ?_, ?_⟩
      · have : A.next (.command (.mk [c] [])) = .plain := by
          simp only [After.next, if_neg (not_letter_symbol hna)]
        rw [this]
        simp only [startB, hna]
        exact .plain
      · simp [startC, hna]

/-! ### Sequences -/

/-- The string starts with an ASCII letter. -/
def startsAlpha : Str → Bool
  | c :: _ => isAsciiAlphabetic c
  | [] => false

theorem kind_command (l lb args) : kind (.mk l (.command (.mk lb args))) =
    if startsAlpha lb = true then .letter else .other := by
  cases lb <;> rfl

theorem letterName_alpha {l : Str} {args} (h : NodeCanon (.command (.mk l args))) :
    LetterName l ↔ startsAlpha l = true := by
  rcases h with ⟨hl, _⟩ | ⟨c, rfl, hna, _⟩
  · obtain ⟨c, r, rfl, ha, hr⟩ := hl
    exact ⟨fun _ => ha, fun _ => ⟨c, r, rfl, ha, hr⟩⟩
  · simp [not_letter_symbol hna, hna, startsAlpha]

theorem kind_next {A : After} {l v} (h : NodeCanon v) :
    kind (.mk l v) = .letter ↔ (A.next v = .bare ∨ A.next v = .withArgs) := by
  cases v with
  | text t => simp only [kind, After.next]; split <;> simp
  | scope s => simp [kind, After.next]
  | command c =>
    obtain ⟨lb, args⟩ := c
    rw [kind_command]
    simp only [After.next]
    have := letterName_alpha h
    by_cases hl : LetterName lb
    · simp only [if_pos hl, this.1 hl, if_true]; by_cases ha : args = [] <;> simp [ha]
    · have h2 : startsAlpha lb = false := by simpa [this] using hl
      simp [if_neg hl, h2]

theorem pend_seq {rec cs} : ∀ {A b bl ln e prev} (e0 : List Chunk), Pend rec A b bl ln e → Fitting A cs →
    GoodR prev ln cs → (prev = .letter ↔ (A = .bare ∨ A = .withArgs)) → AllChunks NodeCanon cs →
    (∀ l inner sv, .mk l (.scope (.mk inner sv)) ∈ cs → rec (displayChunks inner) = .ok inner) →
    (∀ l label args p inner sv, .mk l (.command (.mk label args)) ∈ cs → (p, Scope.mk inner sv) ∈ args →
      rec (displayChunks inner) = .ok inner) →
    (cs = [] → tfinish rec b bl ln = .ok e0) → (cs ≠ [] → e = e0) →
    trun rec (lex false false (displayChunks cs)) b bl ln = .ok (e0 ++ cs) := by
  induction cs with
  | nil =>
    intro A b bl ln e prev e0 hp _ _ _ _ _ _ hl _
    simp only [displayChunks_nil, lex, trun, List.append_nil]
    exact hl rfl
  | cons c cs ih =>
    intro A b bl ln e prev e0 hp hfit hnum hpA hall h1 h2 _ hl
    have he0 := hl (by simp)
    subst he0
    obtain ⟨l, v⟩ := c
    have hc := Chunk.clean (.mk l v) hall.1
    have hv : v.All NodeCanon := hall.1
    have hvn : NodeCanon v := by
      cases v with
      | text t => exact hv
      | scope s => obtain ⟨i, sv⟩ := s; exact hv.1
      | command c => obtain ⟨lb, a⟩ := c; exact hv.1
    rw [displayChunks_cons, lex_clean_append hc]
    obtain ⟨hf, hfit'⟩ := hfit
    simp only [GoodR, Chunk.lineNo] at hnum
    obtain ⟨hnl, -, -, hnum'⟩ := hnum
    obtain ⟨new, b', bl', e', hs, hp', he⟩ := pend_chunk hp hf hv
      (fun inner sv hv => h1 l inner sv (by simp [hv]))
      (fun lb args p inner sv hv hm => h2 l lb args p inner sv (by simp [hv]) hm)
    rw [show Chunk.display (.mk l v) = v.display from rfl] at hnum' ⊢
    by_cases hend : cs = [] ∧ A.next v = .blank
    · obtain ⟨rfl, hA⟩ := hend
      rw [hA] at hp'
      obtain ⟨init, l', t, rfl, hfin⟩ := hp'.finish_blank
      rw [← List.append_assoc] at he
      have he2 := List.append_inj' he (by simp)
      simp only [List.cons.injEq, Chunk.mk.injEq, and_true] at he2
      obtain ⟨he1, hl1, rfl⟩ := he2
      have hoff : offset prev (.mk l (.text t)) true = newlines t := by
        simp only [After.next] at hA
        split at hA
        · rename_i hcond
          simp [offset, hpA.2 hcond.1, all_ws_blank.2 hcond.2]
        · cases hA
      have := hs.trun [] (cs := init ++ [.mk (l' + newlines t) (.text t)]) (by simpa [trun] using hfin)
      simp only [displayChunks_nil, lex]
      rw [this, ← List.append_assoc, he1]
      simp only [symLate] at hl1
      simp only [List.isEmpty_nil] at hnl
      rw [hoff] at hnl
      subst hnl; subst hl1; simp
    · have hoff : offset prev (.mk l v) cs.isEmpty = symLate v := by
        cases v with
        | scope s => obtain ⟨i, sv⟩ := s; simp [offset, symLate]
        | command c => obtain ⟨lb, a⟩ := c; simp [offset, symLate]
        | text t =>
          simp only [offset, symLate]
          split
          · rename_i hcond
            exfalso; apply hend
            refine ⟨by simpa using hcond.2.1, ?_⟩
            simp [After.next, hpA.1 hcond.1, all_ws_blank.1 hcond.2.2]
          · rfl
      rw [hoff] at hnl
      subst hnl
      have hrest := ih e' hp' hfit' hnum' (kind_next hvn) hall.2
        (fun l i s hm => h1 l i s (by simp [hm]))
        (fun l lb a p i s hm => h2 l lb a p i s (by simp [hm]))
        (fun hcs => hp'.finish (fun hA => hend ⟨hcs, hA⟩)) (fun _ => rfl)
      have := hs.trun _ hrest
      rw [this, ← List.append_assoc, he]; simp

theorem Level.trans {d cs lv : List Chunk} (h1 : Level d cs) (h2 : Level cs lv) : Level d lv := by
  induction h2 with
  | top => exact h1
  | scope _ hm ih => exact .scope ih hm
  | arg _ hm hm' ih => exact .arg ih hm hm'

theorem within_level {d : List Chunk} {v} (h : Within d v) : ∃ lv l, Level d lv ∧ Chunk.mk l v ∈ lv := by
  have hw : ∀ {cs : List Chunk} {v}, Within cs v → Level d cs →
      ∃ lv l, Level d lv ∧ Chunk.mk l v ∈ lv := by
    intro cs v hwv
    induction hwv with
    | here hm => intro hl; exact ⟨_, _, hl, hm⟩
    | scope hm _ ih => intro hl; exact ih (.scope hl hm)
    | arg hm hm' _ ih => intro hl; exact ih (.arg hl hm hm')
  exact hw h .top

theorem Canonical.level {d cs : List Chunk} (h : Canonical d) (hl : Level d cs) : Canonical cs :=
  fun lv hlv => h lv (hl.trans hlv)

theorem Canonical.all {d : List Chunk} (h : Canonical d) : AllChunks NodeCanon d := by
  rw [allChunks_iff]
  intro v hv
  obtain ⟨lv, l, hl, hm⟩ := within_level hv
  exact (h lv hl).1.2 l v hm

theorem nodeShape_of_canon {l v} (h : NodeCanon v) : NodeShape (.mk l v) := by
  cases v with
  | text t => exact h
  | scope s => obtain ⟨i, sv⟩ := s; exact h.1
  | command c =>
    obtain ⟨lb, args⟩ := c
    rcases h with ⟨hl, ha⟩ | h
    · refine .inl ⟨hl, ?_⟩
      rintro p ⟨i, sv⟩ hm
      exact (ha p i sv hm).1
    · exact .inr h

theorem fitting_no_adjacent {pre l l' t t' post} : ∀ {A}, Fitting A (pre ++ .mk l (.text t) :: .mk l' (.text t') :: post) →
    False := by
  induction pre with
  | nil =>
    intro A h
    have := h.2.1
    simp only [After.next] at this
    split at this <;> simp [Fits] at this
  | cons x pre ih =>
    intro A h
    obtain ⟨lx, vx⟩ := x
    exact ih h.2

theorem lateBy_offset (pre : List Chunk) (l : Nat) (v : ChunkVariant) (post : List Chunk) :
    lateBy pre v post = offset ((pre.getLast?.map kind).getD .none) (.mk l v) post.isEmpty := by
  cases v with
  | text t =>
    have : ¬ ∃ args, ChunkVariant.text t = .command (.mk ['\n'] args) := by simp
    simp only [lateBy, offset, if_neg this, newlines_eq_count]
    have h : (post = [] ∧ Blank t ∧ EndsWithLetterCommand pre) ↔
        ((pre.getLast?.map kind).getD .none = .letter ∧ post.isEmpty = true ∧ t.all isWhitespace = true) := by
      rw [prev_letter_iff, all_ws_blank, List.isEmpty_iff]; grind
    by_cases hc : post = [] ∧ Blank t ∧ EndsWithLetterCommand pre
    · rw [if_pos hc, if_pos (h.1 hc)]
    · rw [if_neg hc, if_neg (fun hh => hc (h.2 hh))]
  | scope s => simp [lateBy, offset]
  | command c =>
    obtain ⟨lb, args⟩ := c
    simp only [lateBy, offset]
    by_cases h : lb = ['\n']
    · subst h; simp
    · simp [h]

theorem goodR_of_canonical {lv : List Chunk} (h : Printable lv) (hn : NumberedAsParsed lv) :
    GoodR .none 1 lv := by
  rw [goodR_iff]
  rintro pre ⟨l, v⟩ post he
  refine ⟨?_, nodeShape_of_canon (h.2 l v (by simp [he])), ?_⟩
  · rw [newlines_eq_count, ← lateBy_offset pre l v post]; exact hn pre l v post he
  · intro hk hp
    cases v with
    | scope s => simp [kind] at hk
    | command c =>
      obtain ⟨lb, a⟩ := c
      rw [kind_command] at hk; split at hk <;> cases hk
    | text t =>
      rcases hg : pre.getLast? with _ | ⟨l', v'⟩
      · rw [hg] at hp; cases hp
      · rw [hg] at hp
        have hpre := eq_dropLast_append hg
        cases v' with
        | scope s => simp [kind] at hp
        | command c =>
          obtain ⟨lb, a⟩ := c
          simp only [Option.map_some, Option.getD_some, kind_command] at hp; split at hp <;> cases hp
        | text t' =>
          have hf := h.1
          rw [he, hpre, List.append_assoc] at hf
          exact fitting_no_adjacent hf

theorem display_mem_lt {cs : List Chunk} {c} (h : c ∈ cs) :
    c.display.length ≤ (displayChunks cs).length := by
  induction cs with
  | nil => cases h
  | cons x cs ih =>
    rw [displayChunks_cons, List.length_append]
    cases h with
    | head => omega
    | tail _ h => have := ih h; omega

theorem displayArgs_mem_lt {args : List (Str × Scope)} {p s} (h : (p, s) ∈ args) :
    s.display.length ≤ (displayArgs args).length := by
  induction args with
  | nil => cases h
  | cons x args ih =>
    obtain ⟨q, t⟩ := x
    simp only [displayArgs, List.length_append]
    cases h with
    | head => omega
    | tail _ h => have := ih h; omega

theorem roundtrip (d : Document) (h : Canonical d) : fromStr (displayChunks d) = .ok d := by
  generalize hn : (displayChunks d).length = n
  induction n using Nat.strongRecOn generalizing d with
  | _ n ih =>
    subst hn
    obtain ⟨hpr, hnum⟩ := h d .top
    rw [fromStr_eq]
    have := pend_seq (rec := fromStr) (cs := d) (A := .plain) (b := .text []) (bl := 1) (ln := 1) (e := [])
      (prev := .none) [] .plain hpr.1 (goodR_of_canonical hpr hnum) (by simp) h.all ?_ ?_
      (fun _ => by simp [tfinish, textC]) (fun _ => rfl)
    · simpa using this
    · intro l inner sv hm
      refine ih _ ?_ inner (h.level (.scope .top hm)) rfl
      have := display_mem_lt hm
      simp only [Chunk.display, ChunkVariant.display, Scope.display, List.length_cons,
        List.length_append] at this
      omega
    · intro l label args p inner sv hm hm'
      refine ih _ ?_ inner (h.level (.arg .top hm hm')) rfl
      have := display_mem_lt hm
      have h2 := displayArgs_mem_lt hm'
      simp only [Chunk.display, ChunkVariant.display, Command.display, Scope.display, List.length_cons,
        List.length_append] at this h2
      omega

end LatexAst.Ast1
