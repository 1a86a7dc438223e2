import Verif.Proofs.Forward1

/-!
# Parsed documents are (almost) canonical
-/

namespace LatexAst.Ast1
open Spec

/-! ## Neighbours -/

def Buffer.FitB (A : After) : Buffer → Prop
  | .text a => A = .plain ∨ (¬ Blank a ∧
      ((A = .bare ∧ ∃ c r, a = c :: r ∧ isWhitespace c = true) ∨
       (A = .withArgs ∧ ∃ c r, a = c :: r ∧ c ∉ ['}', ']', ')'])))
  | .scope _ _ _ => A = .plain ∨ A = .text
  | .command l _ _ tr => LetterName l ∧ Blank tr

theorem fitB_startB {c : Char} (A : After) (h : isAsciiAlphabetic c = true) : (startB c).FitB A := by
  simp only [startB, h, if_true, Buffer.FitB]
  exact ⟨⟨c, [], rfl, h, by simp⟩, by simp [Blank]⟩

theorem fitB_startB_sym {c : Char} (h : isAsciiAlphabetic c = false) : (startB c).FitB .plain := by
  simp [startB, h, Buffer.FitB]

theorem fits_letter {A l args} (h : LetterName l) : Fits A (.command (.mk l args)) := by
  cases A <;> exact .inl h

theorem fitting_start {A c ln rest} (hs : A = .plain ∨ A = .text ∨ SymbolAfterCommand c)
    (hal : isAsciiAlphabetic c = true → Fitting A rest)
    (hsym : isAsciiAlphabetic c = false → Fitting .plain rest) : Fitting A (startC c ln ++ rest) := by
  unfold startC
  split
  · exact hal ‹_›
  · rename_i h
    have h' : isAsciiAlphabetic c = false := by simpa using h
    refine ⟨?_, ?_⟩
    · have : A = .plain ∨ A = .text ∨ ∀ x ∈ [c], SymbolAfterCommand x := by simpa using hs
      cases A <;> exact .inr this
    · have : A.next (.command (.mk [c] [])) = .plain := by
        simp only [After.next, if_neg (not_letter_symbol h')]
      rw [this]; exact hsym h'

theorem fitting_text {A a bl rest} (h : Buffer.FitB A (.text a)) (h0 : Fitting A rest) (h1 : Fitting .text rest) :
    Fitting A (textC a bl ++ rest) := by
  unfold textC
  split
  · exact h0
  · rename_i hne
    simp only [Buffer.FitB] at h
    rcases h with rfl | ⟨hb, ⟨rfl, h⟩ | ⟨rfl, h⟩⟩
    · exact ⟨trivial, by simpa [After.next] using h1⟩
    · exact ⟨h, by simpa [After.next, hb] using h1⟩
    · refine ⟨?_, by simpa [After.next, hb] using h1⟩
      obtain ⟨c, r, rfl, hc⟩ := h
      intro c' r' he; simp at he; rw [← he.1]; exact hc

theorem fitting_text' {A a bl rest} (h : Buffer.FitB A (.text a)) (h0 : a ≠ [])
    (h1 : Fitting .text rest) : Fitting A (textC a bl ++ rest) := by
  unfold textC
  rw [if_neg h0]
  simp only [Buffer.FitB] at h
  rcases h with rfl | ⟨hb, ⟨rfl, h⟩ | ⟨rfl, h⟩⟩
  · exact ⟨trivial, by simpa [After.next] using h1⟩
  · exact ⟨h, by simpa [After.next, hb] using h1⟩
  · refine ⟨?_, by simpa [After.next, hb] using h1⟩
    obtain ⟨c, r, rfl, hc⟩ := h
    intro c' r' he; simp at he; rw [← he.1]; exact hc

theorem ws_not_closer {c : Char} (h : isWhitespace c = true) : c ∉ ['}', ']', ')'] := by
  have := ws_not_special h
  simp only [Special, List.mem_cons, List.not_mem_nil, or_false] at this ⊢
  grind

/-- What is printed last after a letter command. -/
theorem next_letter {A : After} {l args} (h : LetterName l) : A.next (.command (.mk l args)) = .bare ∨
    A.next (.command (.mk l args)) = .withArgs := by
  simp only [After.next, if_pos h]
  split <;> simp

theorem fitting_trail {A tr bl rest} (hA : A = .bare ∨ A = .withArgs) (hb : Blank tr)
    (h0 : tr = [] → Fitting A rest) (h1 : tr ≠ [] → Fitting .blank rest) : Fitting A (textC tr bl ++ rest) := by
  unfold textC
  split
  · exact h0 ‹_›
  · rename_i hne
    cases tr with
    | nil => exact absurd rfl hne
    | cons c tr =>
      have hc := hb c (by simp)
      refine ⟨?_, ?_⟩
      · rcases hA with rfl | rfl
        · exact ⟨c, tr, rfl, hc⟩
        · intro c' r' he; simp at he; rw [← he.1]; exact ws_not_closer hc
      · have : A.next (.text (c :: tr)) = .blank := by simp [After.next, hA, hb]
        rw [this]; exact h1 hne

theorem evalArgs_ne_nil {rec sc args} (h : evalArgs rec sc = .ok args) (hs : sc ≠ []) : args ≠ [] := by
  cases sc with
  | nil => exact absurd rfl hs
  | cons x sc =>
    obtain ⟨a, v, q⟩ := x
    simp only [evalArgs] at h
    rcases hr : rec a with g | cs
    · rw [hr] at h; cases h
    · rw [hr] at h; simp only at h
      rcases he : evalArgs rec sc with g | args'
      · rw [he] at h; cases h
      · rw [he] at h; injection h with h; subst h; simp

theorem closer_of_none {c : Char} (h : ScopeVariant.fromClosing c = none) : c ∉ ['}', ']', ')'] := by
  simp only [List.mem_cons, List.not_mem_nil, or_false]
  unfold ScopeVariant.fromClosing at h
  grind

theorem opener_of_none {c : Char} (h : ScopeVariant.fromOpening c = none) : c ∉ ['{', '[', '('] := by
  simp only [List.mem_cons, List.not_mem_nil, or_false]
  unfold ScopeVariant.fromOpening at h
  grind

theorem TRun.fitting {rec ts b bl ln cs} (h : TRun rec ts b bl ln cs) :
    ∀ A, (∀ t ∈ ts, Tok.Ok t) → b.FitB A → Fitting A cs := by
  induction h with
  | @nil b bl ln cs hi h =>
    intro A _ hs
    cases h with
    | text a =>
      have := fitting_text (bl := bl) (rest := []) hs trivial trivial
      simpa using this
    | command l sc tr args ha =>
      refine ⟨fits_letter hs.1, ?_⟩
      have := fitting_trail (bl := ln) (rest := []) (next_letter (A := A) (args := args) hs.1) hs.2
        (fun _ => trivial) (fun _ => trivial)
      simpa using this
  | @cons t ts b bl ln new b' bl' rest hi h hr ih =>
    intro A hts hs
    have htk := hts t (by simp)
    replace ih := fun A' => ih A' (fun t ht => hts t (by simp [ht]))
    cases h
    case tEsc a c =>
      rw [List.append_assoc]
      have key : ∀ A', A' = .plain ∨ A' = .text → Fitting A' (startC c (lnAfter ln (true, c)) ++ rest) := by
        intro A' hA
        exact fitting_start (by rcases hA with h | h <;> simp [h]) (fun hal => ih _ (fitB_startB _ hal))
          (fun hsym => ih _ (fitB_startB_sym hsym))
      by_cases h0 : a = []
      · subst h0
        have : A = .plain := by
          simp only [Buffer.FitB] at hs
          rcases hs with h | ⟨h, _⟩
          · exact h
          · exact absurd (by simp [Blank]) h
        simpa [textC] using key A (.inl this)
      · refine fitting_text' hs h0 (key _ (.inr rfl))
    case tOpen a v =>
      by_cases h0 : a = []
      · subst h0
        have : A = .plain := by
          simp only [Buffer.FitB] at hs
          rcases hs with h | ⟨h, _⟩
          · exact h
          · exact absurd (by simp [Blank]) h
        simpa [textC] using ih A (.inl this)
      · exact fitting_text' hs h0 (ih .text (.inr rfl))
    case tChar a c h =>
      refine ih A ?_
      simp only [Buffer.FitB] at hs ⊢
      rcases hs with h | ⟨hb, hs⟩
      · exact .inl h
      · refine .inr ⟨fun hb' => hb fun x hx => hb' x (by simp [hx]), ?_⟩
        rcases hs with ⟨h, c', r, rfl, hc⟩ | ⟨h, c', r, rfl, hc⟩
        · exact .inl ⟨h, c', r ++ [c], rfl, hc⟩
        · exact .inr ⟨h, c', r ++ [c], rfl, hc⟩
    case sEnd a v inner h =>
      have hA : A = .plain ∨ A = .text := hs
      refine ⟨by cases A <;> exact hA, ?_⟩
      exact ih .plain (.inl rfl)
    case sEsc => exact ih A hs
    case sOpen => exact ih A hs
    case sClose => exact ih A hs
    case sChar => exact ih A hs
    case cOpen l sc tr e v => exact ih A ⟨hs.1, by simp [Blank]⟩
    case cWs l sc tr e c h hw =>
      refine ih A ⟨hs.1, ?_⟩
      intro x hx
      rw [List.mem_append, List.mem_singleton] at hx
      rcases hx with hx | rfl
      · exact hs.2 x hx
      · exact hw
    case cEsc l sc tr c args h hw ha =>
      rw [List.append_assoc, List.append_assoc]
      refine ⟨fits_letter hs.1, ?_⟩
      have hsym : SymbolAfterCommand c := ⟨hw, opener_of_none h⟩
      have key : ∀ A', Fitting A' (startC c (lnAfter ln (true, c)) ++ rest) := fun A' =>
        fitting_start (.inr (.inr hsym)) (fun hal => ih _ (fitB_startB _ hal))
          (fun hsym => ih _ (fitB_startB_sym hsym))
      exact fitting_trail (next_letter hs.1) hs.2 (fun _ => key _) (fun _ => key _)
    case cTrail l sc tr c args h hw ht ha =>
      refine ⟨fits_letter hs.1, ?_⟩
      refine ih _ ?_
      cases tr with
      | nil => exact absurd rfl ht
      | cons x tr =>
        have hx := hs.2 x (by simp)
        refine .inr ⟨fun hb => ?_, ?_⟩
        · have := hb c (by simp)
          rw [hw] at this; cases this
        · rcases next_letter (A := A) (args := args) hs.1 with h | h
          · exact .inl ⟨h, x, tr ++ [c], rfl, hx⟩
          · exact .inr ⟨h, x, tr ++ [c], rfl, ws_not_closer hx⟩
    case cLabel l c h hw hc =>
      refine ih A ⟨?_, hs.2⟩
      have h2 := htk rfl
      obtain ⟨c0, r, rfl, h3, h4⟩ := hs.1
      refine ⟨c0, r ++ [c], rfl, h3, ?_⟩
      intro x hx
      rw [List.mem_append, List.mem_singleton] at hx
      rcases hx with hx | rfl
      · exact h4 x hx
      · exact ⟨hw, not_special_of h hc h2.1 h2.2⟩
    case cNext l sc c args h hw hc hs' ha =>
      refine ⟨fits_letter hs.1, ?_⟩
      refine ih _ ?_
      have : A.next (.command (.mk l args)) = .withArgs := by
        simp [After.next, hs.1, evalArgs_ne_nil ha hs']
      rw [this]
      refine .inr ⟨fun hb => ?_, .inr ⟨rfl, c, [], rfl, closer_of_none hc⟩⟩
      have := hb c (by simp)
      rw [hw] at this; cases this
    case aEsc => exact ih A hs
    case aOpen => exact ih A hs
    case aClose => exact ih A ⟨hs.1, by simp [Blank]⟩
    case aChar => exact ih A hs
theorem fromStr_fitting {s d} (h : fromStr s = .ok d) : Fitting .plain d :=
  (fromStr_run h).fitting .plain (lex_ok _ _ _) (.inl rfl)

/-! ## Brackets of one kind -/

def NoTok (v : ScopeVariant) (a : Str) : Prop := (false, v.closing) ∉ lex false false a

/-- No closing bracket of kind `v` in a text, no argument of kind `v`. -/
def NoArg (v : ScopeVariant) : ChunkVariant → Prop
  | .text t => v.closing ∉ t
  | .scope _ => True
  | .command (.mk _ args) => ∀ prec inner sv, (prec, Scope.mk inner sv) ∈ args → sv ≠ v

theorem noTok_nil {v} : NoTok v [] := by simp [NoTok, lex]

theorem noTok_esc {v a} (hc : Clean a) (h : NoTok v a) (c : Char) : NoTok v (a ++ ['\\', c]) := by
  simp only [NoTok, lex_clean_append hc, lex_clean_cons_esc] at h ⊢
  simp [h, lex]

theorem noTok_char {v a} (hc : Clean a) (h : NoTok v a) {c : Char} (h1 : c ≠ '%') (h2 : c ≠ '\\')
    (h3 : v.closing ≠ c) : NoTok v (a ++ [c]) := by
  simp only [NoTok, lex_clean_append hc, lex_char h1 h2] at h ⊢
  simp [h, h3, lex]

def Buffer.FreeB (v : ScopeVariant) : Buffer → Prop
  | .text a => v.closing ∉ a
  | .scope a _ _ => NoTok v a
  | .command _ sc 0 tr => Blank tr ∧ ∀ a w p, (a, w, p) ∈ sc → NoTok v a ∧ w ≠ v
  | .command _ sc (_ + 1) tr => Blank tr ∧ (∀ a w p, (a, w, p) ∈ sc → NoTok v a) ∧
      ∀ init x, sc = init ++ [x] → ∀ a w p, (a, w, p) ∈ init → w ≠ v

def RecFree (rec : Str → Res (List Chunk)) (v : ScopeVariant) : Prop :=
  ∀ a cs, Clean a → NoTok v a → rec a = .ok cs → AllChunks (NoArg v) cs

theorem noArg_textC {v a bl} (h : v.closing ∉ a) : AllChunks (NoArg v) (textC a bl) := by
  unfold textC; split
  · trivial
  · exact ⟨h, trivial⟩

theorem noArg_startC {v c ln} : AllChunks (NoArg v) (startC c ln) := by
  unfold startC; split
  · trivial
  · exact ⟨⟨fun _ _ _ h => (by cases h), trivial⟩, trivial⟩

theorem noArg_command {rec v l bl sc args} (hrec : RecFree rec v) (h : evalArgs rec sc = .ok args)
    (hcl : ∀ a w p, (a, w, p) ∈ sc → Clean a)
    (hs : ∀ a w p, (a, w, p) ∈ sc → NoTok v a ∧ w ≠ v) :
    AllChunks (NoArg v) [.mk bl (.command (.mk l args))] := by
  refine ⟨⟨?_, ?_⟩, trivial⟩
  · intro p inner sv hm
    obtain ⟨a, w, cs, h1, h2, h3⟩ := evalArgs_ok h hm
    cases h3; exact (hs a sv p h1).2
  · simp only [Command.All]
    rw [allArgs_iff_forall]
    rintro ⟨p, s⟩ hm
    obtain ⟨a, w, cs, h1, h2, rfl⟩ := evalArgs_ok h hm
    exact hrec a cs (hcl a w p h1) (hs a w p h1).1 h2

theorem blank_no_closer {v : ScopeVariant} {t : Str} (h : Blank t) : v.closing ∉ t := by
  intro hm
  have := h _ hm
  cases v <;> revert this <;> decide

theorem freeB_startB {v c} : (startB c).FreeB v := by
  unfold startB; split <;> simp [Buffer.FreeB, Blank]

theorem TRun.free {rec v ts b bl ln cs} (hrec : RecFree rec v) (h : TRun rec ts b bl ln cs) :
    (∀ t ∈ ts, Tok.Ok t) → (false, v.closing) ∉ ts → b.CleanContents → b.FreeB v →
      AllChunks (NoArg v) cs := by
  induction h with
  | @nil b bl ln cs hi h =>
    intro _ _ hb hs
    cases h with
    | text a => exact noArg_textC hs
    | command l sc tr args ha =>
      have hcl : ∀ a v p, (a, v, p) ∈ sc → Clean a := fun a v p hm =>
        hb a (by simp only [Buffer.contents, List.mem_map]; exact ⟨_, hm, rfl⟩)
      rw [allChunks_append]
      exact ⟨noArg_command hrec ha hcl hs.2, noArg_textC (blank_no_closer hs.1)⟩
  | @cons t ts b bl ln new b' bl' rest hi h hr ih =>
    intro hts hn hb hs
    have hb' := h.clean (hts t (by simp)) hb
    have htk := hts t (by simp)
    rw [List.mem_cons, not_or] at hn
    replace ih := ih (fun t ht => hts t (by simp [ht])) hn.2 hb'
    have hcl : ∀ {l sc d tr}, b = .command l sc d tr → ∀ a v p, (a, v, p) ∈ sc → Clean a := by
      intro l sc d tr he a v p hm
      exact hb a (by subst he; simp only [Buffer.contents, List.mem_map]; exact ⟨_, hm, rfl⟩)
    have hclS : ∀ {a w d}, b = .scope a w d → Clean a := by
      intro a w d he
      exact hb a (by subst he; simp [Buffer.contents])
    rw [allChunks_append]
    cases h
    case tEsc a c =>
      rw [allChunks_append]
      exact ⟨⟨noArg_textC hs, noArg_startC⟩, ih freeB_startB⟩
    case tOpen a w => exact ⟨noArg_textC hs, ih noTok_nil⟩
    case tChar a c h =>
      refine ⟨trivial, ih ?_⟩
      simp only [Buffer.FreeB, List.mem_append, List.mem_singleton, not_or] at hs ⊢
      refine ⟨hs, fun h => hn.1 (by rw [h])⟩
    case sEnd a w inner h =>
      refine ⟨⟨⟨trivial, ?_⟩, trivial⟩, ih (by simp [Buffer.FreeB])⟩
      exact hrec a inner (hclS rfl) hs h
    case sEsc a w d c => exact ⟨trivial, ih (noTok_esc (hclS rfl) hs c)⟩
    case sOpen a w d =>
      exact ⟨trivial, ih (noTok_char (hclS rfl) hs (htk rfl).1 (htk rfl).2 (fun h => hn.1 (by rw [h])))⟩
    case sClose a w d hd =>
      exact ⟨trivial, ih (noTok_char (hclS rfl) hs (htk rfl).1 (htk rfl).2 (fun h => hn.1 (by rw [h])))⟩
    case sChar a w d c ho hc =>
      exact ⟨trivial, ih (noTok_char (hclS rfl) hs (htk rfl).1 (htk rfl).2 (fun h => hn.1 (by rw [h])))⟩
    case cOpen l sc tr e w =>
      refine ⟨trivial, ih ⟨by simp [Blank], ?_, ?_⟩⟩
      · intro a w' p hm
        rw [List.mem_append, List.mem_singleton] at hm
        rcases hm with hm | hm
        · exact (hs.2 a w' p hm).1
        · cases hm; exact noTok_nil
      · intro init x he a w' p hm
        have := List.append_inj' he (by simp)
        rw [← this.1] at hm
        exact (hs.2 a w' p hm).2
    case cWs l sc tr e c h hw =>
      refine ⟨trivial, ih ⟨?_, hs.2⟩⟩
      intro x hx
      rw [List.mem_append, List.mem_singleton] at hx
      rcases hx with hx | rfl
      · exact hs.1 x hx
      · exact hw
    case cEsc l sc tr c args h hw ha =>
      rw [allChunks_append, allChunks_append]
      exact ⟨⟨⟨noArg_command hrec ha (hcl rfl) hs.2, noArg_textC (blank_no_closer hs.1)⟩, noArg_startC⟩,
        ih freeB_startB⟩
    case cTrail l sc tr c args h hw ht ha =>
      refine ⟨noArg_command hrec ha (hcl rfl) hs.2, ih ?_⟩
      simp only [Buffer.FreeB, List.mem_append, List.mem_singleton, not_or]
      exact ⟨blank_no_closer hs.1, fun h => hn.1 (by rw [h])⟩
    case cLabel l c h hw hc => exact ⟨trivial, ih hs⟩
    case cNext l sc c args h hw hc hs' ha =>
      refine ⟨noArg_command hrec ha (hcl rfl) hs.2, ih ?_⟩
      simp only [Buffer.FreeB, List.mem_singleton]
      exact fun h => hn.1 (by rw [h])
    case aEsc l sc a w p d c =>
      refine ⟨trivial, ih ⟨hs.1, ?_, ?_⟩⟩
      · intro a' w' p' hm
        rw [List.mem_append, List.mem_singleton] at hm
        rcases hm with hm | hm
        · exact hs.2.1 a' w' p' (by simp [hm])
        · cases hm; exact noTok_esc (hcl rfl a w p (by simp)) (hs.2.1 a w p (by simp)) c
      · intro init x he a' w' p' hm
        have := List.append_inj' he (by simp)
        rw [← this.1] at hm
        exact hs.2.2 sc (a, w, p) rfl a' w' p' hm
    case aOpen => exact ⟨trivial, ih hs⟩
    case aClose l sc a w p d =>
      refine ⟨trivial, ih ?_⟩
      cases d with
      | succ d => exact hs
      | zero =>
        refine ⟨hs.1, ?_⟩
        intro a' w' p' hm
        refine ⟨hs.2.1 a' w' p' hm, ?_⟩
        rw [List.mem_append, List.mem_singleton] at hm
        rcases hm with hm | hm
        · exact hs.2.2 sc (a, w, p) rfl a' w' p' hm
        · cases hm; intro h; subst h; exact hn.1 rfl
    case aChar l sc a w p d c ho hc =>
      refine ⟨trivial, ih ⟨hs.1, ?_, ?_⟩⟩
      · intro a' w' p' hm
        rw [List.mem_append, List.mem_singleton] at hm
        rcases hm with hm | hm
        · exact hs.2.1 a' w' p' (by simp [hm])
        · cases hm
          exact noTok_char (hcl rfl a w p (by simp)) (hs.2.1 a w p (by simp)) (htk rfl).1 (htk rfl).2
            (fun h => hn.1 (by rw [h]))
      · intro init x he a' w' p' hm
        have := List.append_inj' he (by simp)
        rw [← this.1] at hm
        exact hs.2.2 sc (a, w, p) rfl a' w' p' hm

theorem fromStr_free {v s d} (h : fromStr s = .ok d) (hn : NoTok v s) : AllChunks (NoArg v) d := by
  unfold fromStr at h
  generalize s.length + 1 = n at h
  induction n generalizing s d with
  | zero => simp [parseFuel] at h
  | succ n ih =>
    rw [parseFuel_succ] at h
    refine (trun_ok inv_init h).free (fun a cs _ hn hr => ih hn hr) (lex_ok _ _ _) hn ?_ ?_
    · intro a ha; cases ha
    · simp [Buffer.FreeB]

/-! ## Contents of arguments -/

def Buffer.OwnB : Buffer → Prop
  | .command _ sc _ _ => ∀ a w p, (a, w, p) ∈ sc → NoTok w a
  | _ => True

def ArgOwn (rec : Str → Res (List Chunk)) (c : Chunk) : Prop :=
  ∀ l label args p inner sv, c = .mk l (.command (.mk label args)) → (p, Scope.mk inner sv) ∈ args →
    ∃ a, NoTok sv a ∧ rec a = .ok inner

theorem argOwn_textC {rec a bl} : ∀ c ∈ textC a bl, ArgOwn rec c := by
  intro c hc; unfold textC at hc; split at hc
  · cases hc
  · simp at hc; subst hc; intro _ _ _ _ _ _ h; simp at h

theorem argOwn_startC {rec c ln} : ∀ x ∈ startC c ln, ArgOwn rec x := by
  intro x hx; unfold startC at hx; split at hx
  · cases hx
  · simp at hx; subst hx
    intro _ _ _ _ _ _ h hm
    simp at h; rw [h.2.2] at hm; cases hm

theorem argOwn_command {rec l label sc args} (h : evalArgs rec sc = .ok args)
    (hs : ∀ a w p, (a, w, p) ∈ sc → NoTok w a) : ArgOwn rec (.mk l (.command (.mk label args))) := by
  intro _ _ _ p inner sv he hm
  simp only [Chunk.mk.injEq, ChunkVariant.command.injEq, Command.mk.injEq] at he
  obtain ⟨_, _, rfl⟩ := he
  obtain ⟨a, v, cs, h1, h2, h3⟩ := evalArgs_ok h hm
  cases h3; exact ⟨a, hs _ _ _ h1, h2⟩

theorem TRun.own {rec ts b bl ln cs} (h : TRun rec ts b bl ln cs) :
    (∀ t ∈ ts, Tok.Ok t) → b.CleanContents → b.OwnB → ∀ c ∈ cs, ArgOwn rec c := by
  induction h with
  | @nil b bl ln cs hi h =>
    intro _ _ hs
    cases h with
    | text a => exact argOwn_textC
    | command l sc tr args ha =>
      intro x hx
      simp only [List.mem_append, List.mem_singleton] at hx
      rcases hx with rfl | hx
      · exact argOwn_command ha hs
      · exact argOwn_textC x hx
  | @cons t ts b bl ln new b' bl' rest hi h hr ih =>
    intro hts hb hs
    have hb' := h.clean (hts t (by simp)) hb
    have htk := hts t (by simp)
    replace ih := ih (fun t ht => hts t (by simp [ht])) hb'
    have hcl : ∀ {l sc d tr}, b = .command l sc d tr → ∀ a v p, (a, v, p) ∈ sc → Clean a := by
      intro l sc d tr he a v p hm
      exact hb a (by subst he; simp only [Buffer.contents, List.mem_map]; exact ⟨_, hm, rfl⟩)
    have hst : ∀ c, (startB c).OwnB := by
      intro c; unfold startB; split <;> simp [Buffer.OwnB]
    have both : b'.OwnB → (∀ c ∈ new, ArgOwn rec c) → ∀ c ∈ new ++ rest, ArgOwn rec c := by
      intro h1 h2 c hc
      rw [List.mem_append] at hc
      exact hc.elim (h2 c) (ih h1 c)
    cases h
    case tEsc a c =>
      refine both (hst c) ?_
      intro x hx; rw [List.mem_append] at hx
      exact hx.elim (argOwn_textC x) (argOwn_startC x)
    case tOpen => exact both trivial argOwn_textC
    case tChar => exact both trivial (by simp)
    case sEnd a v inner h =>
      refine both trivial ?_
      intro x hx; simp at hx; subst hx
      intro _ _ _ _ _ _ h; simp at h
    case sEsc => exact both trivial (by simp)
    case sOpen => exact both trivial (by simp)
    case sClose => exact both trivial (by simp)
    case sChar => exact both trivial (by simp)
    case cOpen l sc tr e w =>
      refine both ?_ (by simp)
      intro a w' p hm
      rw [List.mem_append, List.mem_singleton] at hm
      rcases hm with hm | hm
      · exact hs a w' p hm
      · cases hm; exact noTok_nil
    case cWs => exact both hs (by simp)
    case cEsc l sc tr c args h hw ha =>
      refine both (hst c) ?_
      intro x hx
      simp only [List.mem_append, List.mem_singleton] at hx
      rcases hx with (rfl | hx) | hx
      · exact argOwn_command ha hs
      · exact argOwn_textC x hx
      · exact argOwn_startC x hx
    case cTrail l sc tr c args h hw ht ha =>
      refine both trivial ?_
      intro x hx; simp at hx; subst hx; exact argOwn_command ha hs
    case cLabel l c h hw hc => exact both (by simp [Buffer.OwnB]) (by simp)
    case cNext l sc c args h hw hc hs' ha =>
      refine both trivial ?_
      intro x hx; simp at hx; subst hx; exact argOwn_command ha hs
    case aEsc l sc a w p d c =>
      refine both ?_ (by simp)
      intro a' w' p' hm
      rw [List.mem_append, List.mem_singleton] at hm
      rcases hm with hm | hm
      · exact hs a' w' p' (by simp [hm])
      · cases hm; exact noTok_esc (hcl rfl a w p (by simp)) (hs a w p (by simp)) c
    case aOpen => exact both hs (by simp)
    case aClose => exact both hs (by simp)
    case aChar l sc a w p d c ho hc =>
      refine both ?_ (by simp)
      intro a' w' p' hm
      rw [List.mem_append, List.mem_singleton] at hm
      rcases hm with hm | hm
      · exact hs a' w' p' (by simp [hm])
      · cases hm
        exact noTok_char (hcl rfl a w p (by simp)) (hs a w p (by simp)) (htk rfl).1 (htk rfl).2 hc

theorem fromStr_own {s d} (h : fromStr s = .ok d) : ∀ c ∈ d, ArgOwn fromStr c :=
  (fromStr_run h).own (lex_ok _ _ _) (by intro a ha; cases ha) trivial

/-- An argument of kind `sv` contains no argument of kind `sv` and no closing bracket of that kind in
a text, at any depth. -/
theorem arg_noArg {s d lv l label args p inner sv} (h : fromStr s = .ok d) (hl : Level d lv)
    (hm : .mk l (.command (.mk label args)) ∈ lv) (hm' : (p, Scope.mk inner sv) ∈ args) :
    AllChunks (NoArg sv) inner := by
  obtain ⟨a, ha⟩ := level_parsed h hl
  obtain ⟨a', hn, hr⟩ := fromStr_own ha _ hm l label args p inner sv rfl hm'
  exact fromStr_free hr hn

theorem level_within {d lv : List Chunk} (h : Level d lv) : ∀ v, Within lv v → Within d v := by
  induction h with
  | top => exact fun _ h => h
  | scope _ hm ih => exact fun v hv => ih v (.scope hm hv)
  | arg _ hm hm' ih => exact fun v hv => ih v (.arg hm hm' hv)

/-- Which parsed documents are canonical. -/
theorem canonical_of_parsed {s : Str} {d : Document} (h : fromStr s = .ok d)
    (h1 : NoScopeInCurlyArgument d) (h2 : NoCloserInScope d) : Canonical d := by
  intro lv hl
  obtain ⟨a, ha⟩ := level_parsed h hl
  have hg := goodR_iff.1 (fromStr_good ha)
  refine ⟨⟨fromStr_fitting ha, ?_⟩, ?_⟩
  · intro l v hm
    have hns : NodeShape (.mk l v) := by
      obtain ⟨pre, post, rfl⟩ := List.append_of_mem hm
      exact (hg pre _ post rfl).2.1
    cases v with
    | text t => exact hns
    | scope s =>
      obtain ⟨inner, sv⟩ := s
      exact ⟨hns, h2 inner sv (level_within hl _ (.here hm))⟩
    | command c =>
      obtain ⟨label, args⟩ := c
      rcases hns with ⟨hlab, hb⟩ | hns
      · refine .inl ⟨hlab, fun p inner sv hm' => ⟨hb p _ hm', ?_, ?_⟩⟩
        · have hno := (allChunks_iff _).1 (arg_noArg h hl hm hm')
          refine ⟨?_, ?_⟩
          · intro i sv' hw
            have hcur : sv' = .curly := by
              obtain ⟨lv', l', hl', hm''⟩ := within_level hw
              obtain ⟨a', ha'⟩ := level_parsed h ((Level.arg hl hm hm').trans hl')
              have := goodR_iff.1 (fromStr_good ha')
              obtain ⟨pre, post, rfl⟩ := List.append_of_mem hm''
              exact (this pre _ post rfl).2.1
            subst hcur
            intro hsv
            subst hsv
            exact h1 label args p inner (level_within hl _ (.here hm)) hm' _ hw
          · intro lb as p' i sv' hw hmm
            exact hno _ hw p' i sv' hmm
        · have hno := (allChunks_iff _).1 (arg_noArg h hl hm hm')
          intro t ht; exact hno _ ht
      · exact .inr hns
  · intro pre l v post he
    have := (hg pre (.mk l v) post he).1
    rw [newlines_eq_count, ← lateBy_offset] at this
    exact this

end LatexAst.Ast1
