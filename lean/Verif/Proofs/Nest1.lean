import Verif.Proofs.Shape1

/-!
# Bracket nesting, and what printing a parsed document can drop
-/

namespace LatexAst.Ast1
open Spec

/-! ## Pending opening brackets -/

/-- Count the pending opening brackets of kind `v` (closing brackets without opener are ignored). -/
def cnt (v : ScopeVariant) (k : Nat) (t : Tok) : Nat :=
  if t.1 then k else if t.2 = v.opening then k + 1 else if t.2 = v.closing then k - 1 else k
def ccnt (v : ScopeVariant) (k : Nat) (c : Char) : Nat :=
  if c = v.opening then k + 1 else if c = v.closing then k - 1 else k

theorem cnt_mono {v k k' t} (h : k ≤ k') : cnt v k t ≤ cnt v k' t := by
  unfold cnt; repeat' split
  all_goals omega

theorem foldl_cnt_mono {v k k'} (h : k ≤ k') (ts : List Tok) : ts.foldl (cnt v) k ≤ ts.foldl (cnt v) k' := by
  induction ts generalizing k k' with
  | nil => exact h
  | cons t ts ih => exact ih (cnt_mono h)

theorem ccnt_mono {v k k' c} (h : k ≤ k') : ccnt v k c ≤ ccnt v k' c := by
  unfold ccnt; repeat' split
  all_goals omega

theorem foldl_ccnt_mono {v k k'} (h : k ≤ k') (ts : Str) : ts.foldl (ccnt v) k ≤ ts.foldl (ccnt v) k' := by
  induction ts generalizing k k' with
  | nil => exact h
  | cons t ts ih => exact ih (ccnt_mono h)

theorem opening_ne_closing (v w : ScopeVariant) : v.opening ≠ w.closing := by
  cases v <;> cases w <;> decide
theorem opening_inj {v w : ScopeVariant} : v.opening = w.opening ↔ v = w := by
  cases v <;> cases w <;> decide
theorem closing_inj {v w : ScopeVariant} : v.closing = w.closing ↔ v = w := by
  cases v <;> cases w <;> decide
theorem fromOpening_none {c : Char} (h : ScopeVariant.fromOpening c = none) (v : ScopeVariant) :
    c ≠ v.opening := by
  intro he; rw [← fromOpening_some_iff] at he; rw [h] at he; cases he
theorem fromClosing_none {c : Char} (h : ScopeVariant.fromClosing c = none) (v : ScopeVariant) :
    c ≠ v.closing := by
  intro he; rw [← fromClosing_some_iff] at he; rw [h] at he; cases he

/-- Pending brackets of a content. -/
def pend (v : ScopeVariant) (k : Nat) (a : Str) : Nat := (lex false false a).foldl (cnt v) k

theorem pend_mono {v k k'} (h : k ≤ k') (a : Str) : pend v k a ≤ pend v k' a := foldl_cnt_mono h _

theorem pend_append {v k a} (h : Clean a) (b : Str) : pend v k (a ++ b) = pend v (pend v k a) b := by
  unfold pend; rw [lex_clean_append h, List.foldl_append]

theorem pend_nil {v k} : pend v k [] = k := rfl
theorem pend_esc {v k c} : pend v k ['\\', c] = k := by
  unfold pend; rw [lex_bs, lex_esc]; simp [cnt, lex]
theorem pend_char {v k c} (h1 : c ≠ '%') (h2 : c ≠ '\\') : pend v k [c] = cnt v k (false, c) := by
  unfold pend; rw [lex_char h1 h2]; simp [lex]

def pendSc (v : ScopeVariant) (k : Nat) (sc : List ScopeBuf) : Nat := sc.foldl (fun k x => pend v k x.1) k

theorem pendSc_append {v k a b} : pendSc v k (a ++ b) = pendSc v (pendSc v k a) b := by
  simp [pendSc, List.foldl_append]

/-- How many closing brackets of kind `v` the buffer still needs. -/
def Buffer.need (v : ScopeVariant) : Buffer → Nat
  | .text _ => 0
  | .scope a w d => if w = v then d else pend v 0 a
  | .command _ sc d _ =>
    pendSc v 0 sc + (if sc.getLast?.map (fun x => x.2.1) = some v then d else 0)

theorem need_start {v} (c : Char) : (startB c).need v = 0 := by
  unfold startB; split <;> simp [Buffer.need, pendSc]

def RecNest (rec : Str → Res (List Chunk)) (v : ScopeVariant) : Prop :=
  ∀ a cs, Clean a → rec a = .ok cs → pend v 0 a = 0

theorem pendSc_zero {rec v sc args} (hrec : RecNest rec v) (hcl : ∀ a w p, (a, w, p) ∈ sc → Clean a)
    (h : evalArgs rec sc = .ok args) : pendSc v 0 sc = 0 := by
  induction sc generalizing args with
  | nil => rfl
  | cons x sc ih =>
    obtain ⟨a, w, q⟩ := x
    simp only [evalArgs] at h
    rcases hr : rec a with g | cs
    · rw [hr] at h; cases h
    · rw [hr] at h; simp only at h
      rcases he : evalArgs rec sc with g | args'
      · rw [he] at h; cases h
      · have h0 := hrec a cs (hcl a w q (by simp)) hr
        have := ih (fun a w p hm => hcl a w p (by simp [hm])) he
        simpa [pendSc, h0] using this

theorem TStep.need {rec v b bl ln t new b' bl' k} (hrec : RecNest rec v) (hb : b.CleanContents)
    (ht : Tok.Ok t) (h : TStep rec bl ln b t new b' bl') (hk : k ≤ b.need v) :
    cnt v k t ≤ b'.need v := by
  have hcl : ∀ {l sc d tr}, b = .command l sc d tr → ∀ a v p, (a, v, p) ∈ sc → Clean a := by
    intro l sc d tr he a v p hm
    exact hb a (by subst he; simp only [Buffer.contents, List.mem_map]; exact ⟨_, hm, rfl⟩)
  have hz : ∀ {l sc tr args}, b = .command l sc 0 tr → evalArgs rec sc = .ok args → k = 0 := by
    intro l sc tr args he ha
    have h0 := pendSc_zero hrec (hcl he) ha
    subst he
    simp only [Buffer.need, h0] at hk
    split at hk <;> omega
  cases h
  case tEsc a c =>
    simp only [Buffer.need] at hk
    rw [need_start]; simp [cnt]; omega
  case tOpen a w =>
    simp only [Buffer.need] at hk ⊢
    by_cases hw : w = v
    · subst hw; simp [cnt]; omega
    · have h1 : w.opening ≠ v.opening := fun h => hw (opening_inj.1 h)
      have h2 : w.opening ≠ v.closing := opening_ne_closing _ _
      simp [cnt, h1, h2, hw, pend_nil]; omega
  case tChar a c h =>
    simp only [Buffer.need] at hk ⊢
    have := fromOpening_none h v
    simp only [cnt, this, if_false, Bool.false_eq_true]
    split <;> omega
  case sEsc a w d c =>
    have hca : Clean a := hb a (by simp [Buffer.contents])
    simp only [Buffer.need] at hk ⊢
    simp only [cnt, if_true, pend_append hca, pend_esc]; exact hk
  case sOpen a w d =>
    have hca : Clean a := hb a (by simp [Buffer.contents])
    have hto := ht rfl
    simp only [Buffer.need] at hk ⊢
    by_cases hw : w = v
    · subst hw; simp [cnt] at hk ⊢; omega
    · simp only [hw, if_false, pend_append hca, pend_char hto.1 hto.2] at hk ⊢
      exact cnt_mono hk
  case sEnd a w inner h =>
    have hca : Clean a := hb a (by simp [Buffer.contents])
    have h0 := hrec a inner hca h
    simp only [Buffer.need] at hk ⊢
    by_cases hw : w = v
    · subst hw
      simp only [if_true] at hk
      have h1 : w.closing ≠ w.opening := (opening_ne_closing _ _).symm
      simp [cnt, h1]; omega
    · simp only [hw, if_false, h0] at hk
      have h1 : w.closing ≠ v.opening := (opening_ne_closing _ _).symm
      have h2 : w.closing ≠ v.closing := fun h => hw (closing_inj.1 h)
      simp [cnt, h1, h2]; omega
  case sClose a w d hd =>
    have hca : Clean a := hb a (by simp [Buffer.contents])
    have hto := ht rfl
    simp only [Buffer.need] at hk ⊢
    by_cases hw : w = v
    · subst hw
      have h1 : w.closing ≠ w.opening := (opening_ne_closing _ _).symm
      simp [cnt, h1] at hk ⊢; omega
    · simp only [hw, if_false, pend_append hca, pend_char hto.1 hto.2] at hk ⊢
      exact cnt_mono hk
  case sChar a w d c ho hc =>
    have hca : Clean a := hb a (by simp [Buffer.contents])
    have hto := ht rfl
    simp only [Buffer.need] at hk ⊢
    by_cases hw : w = v
    · subst hw
      simp [cnt, ho.symm, hc.symm] at hk ⊢; exact hk
    · simp only [hw, if_false, pend_append hca, pend_char hto.1 hto.2] at hk ⊢
      exact cnt_mono hk
  case cOpen l sc tr e w =>
    simp only [Buffer.need, pendSc_append] at hk ⊢
    have hk' : k ≤ pendSc v 0 sc := by split at hk <;> omega
    have h2 : w.opening ≠ v.closing := opening_ne_closing _ _
    by_cases hw : w = v
    · subst hw
      simp [cnt, pendSc, pend_nil] at hk' ⊢
      split <;> omega
    · have h1 : w.opening ≠ v.opening := fun h => hw (opening_inj.1 h)
      simp [cnt, h1, h2, hw, pendSc, pend_nil] at hk' ⊢; exact hk'
  case cWs l sc tr e c h hw =>
    simp only [Buffer.need] at hk ⊢
    have h1 := fromOpening_none h v
    have h2 : c ≠ v.closing := by
      rintro rfl; revert hw; cases v <;> decide
    simp [cnt, h1, h2]; split at hk <;> omega
  case cEsc l sc tr c args h hw ha =>
    rw [need_start, hz rfl ha]; simp [cnt]
  case cTrail l sc tr c args h hw htr ha =>
    rw [hz rfl ha]
    have := fromOpening_none h v
    simp [cnt, this]
  case cLabel l c h hw hc =>
    simp only [Buffer.need] at hk ⊢
    simp [cnt, fromOpening_none h v, fromClosing_none hc v] at hk ⊢; exact hk
  case cNext l sc c args h hw hc hs ha =>
    rw [hz rfl ha]
    simp [cnt, fromOpening_none h v]
  case aEsc l sc a w p d c =>
    have hca : Clean a := hcl rfl a w p (by simp)
    simp only [Buffer.need, pendSc_append] at hk ⊢
    simp [cnt, pendSc, pend_append hca, pend_esc] at hk ⊢; exact hk
  case aOpen l sc a w p d =>
    simp only [Buffer.need, pendSc_append] at hk ⊢
    have h2 : w.opening ≠ v.closing := opening_ne_closing _ _
    by_cases hw : w = v
    · subst hw; simp [cnt] at hk ⊢; omega
    · have h1 : w.opening ≠ v.opening := fun h => hw (opening_inj.1 h)
      simp [cnt, h1, h2, hw] at hk ⊢; exact hk
  case aClose l sc a w p d =>
    simp only [Buffer.need, pendSc_append] at hk ⊢
    have h1 : w.closing ≠ v.opening := (opening_ne_closing _ _).symm
    by_cases hw : w = v
    · subst hw; simp [cnt, h1] at hk ⊢; omega
    · have h2 : w.closing ≠ v.closing := fun h => hw (closing_inj.1 h)
      simp [cnt, h1, h2, hw] at hk ⊢; exact hk
  case aChar l sc a w p d c ho hc =>
    have hca : Clean a := hcl rfl a w p (by simp)
    have hto := ht rfl
    simp only [Buffer.need, pendSc_append] at hk ⊢
    simp only [pendSc, List.foldl_cons, List.foldl_nil, pend_append hca, pend_char hto.1 hto.2,
      List.getLast?_append, List.getLast?_singleton, Option.some_or, Option.map_some] at hk ⊢
    by_cases hw : w = v
    · subst hw
      simp [cnt, ho.symm, hc.symm] at hk ⊢; exact hk
    · simp [hw] at hk ⊢
      exact cnt_mono hk

theorem TRun.nest {rec v ts b bl ln cs k} (hrec : RecNest rec v) (h : TRun rec ts b bl ln cs)
    (hts : ∀ t ∈ ts, Tok.Ok t) (hb : b.CleanContents) (hk : k ≤ b.need v) :
    ts.foldl (cnt v) k = 0 := by
  induction h generalizing k with
  | nil hi h =>
    cases h with
    | text a => simp [Buffer.need] at hk; simpa using hk
    | command l sc tr args ha =>
      have := pendSc_zero hrec (fun a v p hm =>
        hb a (by simp only [Buffer.contents, List.mem_map]; exact ⟨_, hm, rfl⟩)) ha
      simp only [Buffer.need, this] at hk
      simp only [List.foldl_nil]
      split at hk <;> omega
  | cons hi h hr ih =>
    rw [List.foldl_cons]
    exact ih (fun t ht => hts t (by simp [ht])) (h.clean (hts _ (by simp)) hb)
      (h.need hrec hb (hts _ (by simp)) hk)

theorem parseFuel_nest (v : ScopeVariant) (n : Nat) {s d} (h : parseFuel n s = .ok d) :
    (lex false false s).foldl (cnt v) 0 = 0 := by
  induction n generalizing s d with
  | zero => simp [parseFuel] at h
  | succ n ih =>
    refine (parseFuel_ok h).nest (fun a cs _ ha => ih ha) (lex_ok _ _ _) ?_ (Nat.zero_le _)
    intro a ha; cases ha

theorem foldl_lex (v : ScopeVariant) : ∀ s e cm, ∀ k,
    (lex e cm s).foldl (cnt v) k = (unescaped (srcOf e cm s)).foldl (ccnt v) k := by
  have hbs : ∀ k, ccnt v k '\\' = k := by intro k; cases v <;> simp [ccnt, ScopeVariant.opening, ScopeVariant.closing]
  have hnl : ∀ k, ccnt v k '\n' = k := by intro k; cases v <;> simp [ccnt, ScopeVariant.opening, ScopeVariant.closing]
  refine lex_induction ?_ ?_ ?_ ?_ ?_ ?_ ?_
  · intro e cm k
    cases e <;> cases cm <;> simp [lex, srcOf, stripComments, skipComment, unescaped, hbs]
  · intro e cm s ih k
    rw [lex_nl]
    have h2 : ∀ s', (unescaped ('\n' :: s')).foldl (ccnt v) k = (unescaped s').foldl (ccnt v) k := by
      intro s'; rw [unesc_cons (by decide), List.foldl_cons, hnl]
    have h3 : cnt v k (e, '\n') = k := by
      cases e
      · exact hnl k
      · rfl
    rw [List.foldl_cons, h3, ih]
    cases cm
    · cases e
      · simp only [srcOf, strip_cons (c := '\n') (by decide) (by decide)]
        exact (h2 _).symm
      · simp only [srcOf, strip_bs, unesc_bs]
    · have : srcOf e true ('\n' :: s) = '\n' :: stripComments s := by cases e <;> exact skip_nl s
      rw [this]
      exact (h2 _).symm
  · intro cm s ih k
    rw [lex_pct, ih]
    cases cm
    · simp [srcOf, strip_pct]
    · simp [srcOf, skip_cons]
  · intro cm s ih k
    rw [lex_bs, ih]
    cases cm
    · rfl
    · simp [srcOf, skip_cons]
  · intro c s hn ih k
    rw [lex_esc, List.foldl_cons, ih]
    simp [srcOf, strip_bs, unesc_bs, cnt]
  · intro c s hn h1 h2 ih k
    rw [lex_char h1 h2, List.foldl_cons, ih]
    simp only [srcOf, strip_cons h1 h2, unesc_cons h2, List.foldl_cons]
    rfl
  · intro e c s hn h ih k
    have : lex e true (c :: s) = lex e true s := by
      cases e
      · exact lex_comment hn (h rfl).2 _ _
      · exact lex_comment' hn _
    rw [this, ih]
    cases e <;> simp [srcOf, skip_cons hn]

theorem foldl_ccnt_ge (v : ScopeVariant) (s : Str) (k : Nat) :
    k + s.count v.opening ≤ s.foldl (ccnt v) k + s.count v.closing := by
  induction s generalizing k with
  | nil => simp
  | cons c s ih =>
    have hne := opening_ne_closing v v
    rw [List.foldl_cons, List.count_cons, List.count_cons]
    have := ih (ccnt v k c)
    by_cases h1 : c = v.opening
    · have h2 : c ≠ v.closing := by rw [h1]; exact hne
      simp [ccnt, h1] at this ⊢
      have : v.opening ≠ v.closing := hne
      simp [this] at *; omega
    · by_cases h2 : c = v.closing
      · simp [ccnt, h2] at this ⊢
        have : v.closing ≠ v.opening := hne.symm
        simp [this] at *; omega
      · simp [ccnt, h1, h2] at this ⊢; omega

theorem nest_suffix {v : ScopeVariant} {s pre suf : Str} (h : s.foldl (ccnt v) 0 = 0)
    (he : s = pre ++ suf) : suf.count v.opening ≤ suf.count v.closing := by
  subst he
  rw [List.foldl_append] at h
  have h1 := foldl_ccnt_mono (v := v) (Nat.zero_le (pre.foldl (ccnt v) 0)) suf
  rw [h] at h1
  have := foldl_ccnt_ge v suf 0
  omega

/-! ## Printing a parsed document only drops characters -/

/-- Source text of a token. -/
def Tok.src (t : Tok) : Str := if t.1 then ['\\', t.2] else [t.2]

def unlex (ts : List Tok) : Str := (ts.map Tok.src).flatten

def nrm (s : Str) : Str := s.map anyBracket

theorem nrm_append (a b : Str) : nrm (a ++ b) = nrm a ++ nrm b := by simp [nrm]
theorem nrm_cons (c : Char) (b : Str) : nrm (c :: b) = anyBracket c :: nrm b := rfl
theorem nrm_nil : nrm [] = [] := rfl
theorem any_opening (v : ScopeVariant) : anyBracket v.opening = '{' := by cases v <;> rfl
theorem any_closing (v : ScopeVariant) : anyBracket v.closing = '}' := by cases v <;> rfl

theorem unlex_lex_clean {a : Str} (h : Clean a) : unlex (lex false false a) = a := by
  induction h with
  | nil => rfl
  | esc c h ih =>
    rw [lex_clean_append h, unlex, List.map_append, List.flatten_append]
    unfold unlex at ih; rw [ih, lex_bs, lex_esc]; simp [lex, Tok.src]
  | char c h h1 h2 ih =>
    rw [lex_clean_append h, unlex, List.map_append, List.flatten_append]
    unfold unlex at ih; rw [ih, lex_char h1 h2]; simp [lex, Tok.src]

/-- Completed arguments as printed. -/
def shownSc : List ScopeBuf → Str
  | [] => []
  | (a, v, p) :: r => p ++ v.opening :: (a ++ v.closing :: shownSc r)

/-- What the buffer holds, as source. -/
def Buffer.shown : Buffer → Str
  | .text a => a
  | .scope a v _ => v.opening :: a
  | .command l sc 0 tr => '\\' :: (l ++ (shownSc sc ++ tr))
  | .command l sc (_ + 1) _ =>
    '\\' :: (l ++ (shownSc sc.dropLast ++
      (match sc.getLast? with | none => [] | some (a, v, p) => p ++ v.opening :: a)))

theorem shownSc_append (a b : List ScopeBuf) : shownSc (a ++ b) = shownSc a ++ shownSc b := by
  induction a with
  | nil => rfl
  | cons x a ih => obtain ⟨u, v, w⟩ := x; simp [shownSc, ih]

def RecSub (rec : Str → Res (List Chunk)) : Prop :=
  ∀ a cs, Clean a → rec a = .ok cs → (nrm (displayChunks cs)).Sublist (nrm a)

theorem sub_args {rec sc args} (hrec : RecSub rec) (hcl : ∀ a v p, (a, v, p) ∈ sc → Clean a)
    (h : evalArgs rec sc = .ok args) : (nrm (displayArgs args)).Sublist (nrm (shownSc sc)) := by
  induction sc generalizing args with
  | nil => simp only [evalArgs] at h; injection h with h; subst h; simp [displayArgs, shownSc]
  | cons x sc ih =>
    obtain ⟨a, v, q⟩ := x
    simp only [evalArgs] at h
    rcases hr : rec a with g | cs
    · rw [hr] at h; cases h
    · rw [hr] at h; simp only at h
      rcases he : evalArgs rec sc with g | args'
      · rw [he] at h; cases h
      · rw [he] at h; injection h with h; subst h
        have h1 := hrec _ _ (hcl a v q (by simp)) hr
        have h2 := ih (fun a v p hm => hcl a v p (by simp [hm])) he
        simp only [displayArgs, Scope.display, shownSc, nrm_append, nrm_cons, List.cons_append,
          List.append_assoc, nrm_nil, List.nil_append]
        exact List.Sublist.append (List.Sublist.refl _)
          (List.Sublist.cons_cons _ (List.Sublist.append h1 (List.Sublist.cons_cons _ h2)))

theorem shown_start (c : Char) (ln : Nat) :
    displayChunks (startC c ln) ++ (startB c).shown = ['\\', c] := by
  unfold startC startB
  split
  · simp [displayChunks_nil, Buffer.shown, shownSc]
  · simp [displayChunks_cons, displayChunks_nil, Chunk.display, ChunkVariant.display,
      Command.display, displayArgs, Buffer.shown]

theorem TStep.sub {rec b bl ln t new b' bl'} (hrec : RecSub rec) (hb : b.CleanContents)
    (h : TStep rec bl ln b t new b' bl') :
    (nrm (displayChunks new ++ b'.shown)).Sublist (nrm (b.shown ++ t.src)) := by
  have hcl : ∀ {l sc d tr}, b = .command l sc d tr → ∀ a v p, (a, v, p) ∈ sc → Clean a := by
    intro l sc d tr he a v p hm
    exact hb a (by subst he; simp only [Buffer.contents, List.mem_map]; exact ⟨_, hm, rfl⟩)
  have hcmd : ∀ {l sc tr args}, b = .command l sc 0 tr → evalArgs rec sc = .ok args →
      (nrm (Chunk.display (.mk bl (.command (.mk l args))))).Sublist
        (nrm ('\\' :: (l ++ shownSc sc))) := by
    intro l sc tr args he ha
    simp only [Chunk.display, ChunkVariant.display, Command.display, nrm_cons, nrm_append]
    exact List.Sublist.cons_cons _
      (List.Sublist.append (List.Sublist.refl _) (sub_args hrec (hcl he) ha))
  cases h
  case tEsc a c =>
    rw [displayChunks_append, display_textC, List.append_assoc, shown_start]
    simp [Buffer.shown, Tok.src]
  case tOpen a v => simp [display_textC, Buffer.shown, Tok.src]
  case tChar => simp [displayChunks_nil, Buffer.shown, Tok.src]
  case sEsc => simp [displayChunks_nil, Buffer.shown, Tok.src]
  case sOpen => simp [displayChunks_nil, Buffer.shown, Tok.src]
  case sClose => simp [displayChunks_nil, Buffer.shown, Tok.src]
  case sChar => simp [displayChunks_nil, Buffer.shown, Tok.src]
  case sEnd a v inner h =>
    have := hrec a inner (hb a (by simp [Buffer.contents])) h
    simp only [displayChunks_cons, displayChunks_nil, Chunk.display, ChunkVariant.display,
      Scope.display, Buffer.shown, Tok.src, List.append_nil, nrm_append, nrm_cons, List.cons_append,
      any_opening, any_closing, nrm_nil, Bool.false_eq_true, if_false]
    exact List.Sublist.cons_cons _ (List.Sublist.append this (List.Sublist.refl _))
  case cOpen l sc tr e v =>
    simp only [displayChunks_nil, Buffer.shown, Tok.src, List.nil_append, List.dropLast_concat,
      List.getLast?_append, List.getLast?_singleton, Option.some_or, nrm_append, nrm_cons, nrm_nil,
      List.cons_append, List.append_assoc]
    refine List.Sublist.cons_cons _ (List.Sublist.append (List.Sublist.refl _)
      (List.Sublist.append (List.Sublist.refl _) (List.Sublist.append (List.Sublist.refl _) ?_)))
    cases e
    · simp [nrm]
    · simp [nrm]
  case cWs l sc tr e c h hw =>
    simp only [displayChunks_nil, Buffer.shown, Tok.src, List.nil_append, nrm_append, nrm_cons,
      nrm_nil, List.cons_append, List.append_assoc]
    refine List.Sublist.cons_cons _ (List.Sublist.append (List.Sublist.refl _)
      (List.Sublist.append (List.Sublist.refl _) (List.Sublist.append (List.Sublist.refl _) ?_)))
    cases e
    · simp [nrm]
    · simp [nrm]
  case cEsc l sc tr c args h hw ha =>
    rw [displayChunks_append, displayChunks_append, display_textC, List.append_assoc,
      List.append_assoc, shown_start, displayChunks_cons, displayChunks_nil, List.append_nil]
    have := hcmd rfl ha
    rw [nrm_append]
    have e : (Buffer.command l sc 0 tr).shown ++ Tok.src (true, c) =
      ('\\' :: (l ++ shownSc sc)) ++ (tr ++ ['\\', c]) := by simp [Buffer.shown, Tok.src]
    rw [e, nrm_append (_ :: _)]
    exact List.Sublist.append this (List.Sublist.refl _)
  case cTrail l sc tr c args h hw ht ha =>
    rw [displayChunks_cons, displayChunks_nil, List.append_nil]
    have := hcmd rfl ha
    rw [nrm_append]
    have e : (Buffer.command l sc 0 tr).shown ++ Tok.src (false, c) =
      ('\\' :: (l ++ shownSc sc)) ++ (tr ++ [c]) := by simp [Buffer.shown, Tok.src]
    rw [e, nrm_append]
    exact List.Sublist.append this (List.Sublist.refl _)
  case cLabel => simp [displayChunks_nil, Buffer.shown, Tok.src, shownSc]
  case cNext l sc c args h hw hc hs ha =>
    rw [displayChunks_cons, displayChunks_nil, List.append_nil]
    have := hcmd rfl ha
    rw [nrm_append]
    have e : (Buffer.command l sc 0 []).shown ++ Tok.src (false, c) =
      ('\\' :: (l ++ shownSc sc)) ++ [c] := by simp [Buffer.shown, Tok.src]
    rw [e, nrm_append]
    exact List.Sublist.append this (List.Sublist.refl _)
  case aEsc => simp [displayChunks_nil, Buffer.shown, Tok.src]
  case aOpen =>
    simp only [displayChunks_nil, List.nil_append, Buffer.shown, nrm_append]
    exact List.sublist_append_left _ _
  case aClose l sc a v p d =>
    simp only [displayChunks_nil, List.nil_append]
    cases d with
    | zero =>
      have e : (Buffer.command l (sc ++ [(a, v, p)]) 1 []).shown ++ Tok.src (false, v.closing) =
          (Buffer.command l (sc ++ [(a, v, p)]) 0 []).shown := by
        simp [Buffer.shown, Tok.src, shownSc_append, shownSc]
      rw [e]; exact List.Sublist.refl _
    | succ d =>
      simp only [Buffer.shown, nrm_append]
      exact List.sublist_append_left _ _
  case aChar => simp [displayChunks_nil, Buffer.shown, Tok.src]

theorem TRun.sub {rec ts b bl ln cs} (hrec : RecSub rec) (h : TRun rec ts b bl ln cs)
    (hts : ∀ t ∈ ts, Tok.Ok t) (hb : b.CleanContents) :
    (nrm (displayChunks cs)).Sublist (nrm (b.shown ++ unlex ts)) := by
  induction h with
  | nil hi h =>
    cases h with
    | text a => simp [display_textC, Buffer.shown, unlex]
    | command l sc tr args ha =>
      have := sub_args hrec (fun a v p hm =>
        hb a (by simp only [Buffer.contents, List.mem_map]; exact ⟨_, hm, rfl⟩)) ha
      simp only [displayChunks_append, display_textC, displayChunks_cons, displayChunks_nil,
        Chunk.display, ChunkVariant.display, Command.display, Buffer.shown, unlex, List.map_nil,
        List.flatten_nil, List.append_nil, nrm_append, nrm_cons, List.cons_append, List.append_assoc]
      exact List.Sublist.cons_cons _ (List.Sublist.append (List.Sublist.refl _)
        (List.Sublist.append this (List.Sublist.refl _)))
  | @cons t ts b bl ln new b' bl' rest hi h hr ih =>
    have h1 := h.sub hrec hb
    have h2 := ih (fun t ht => hts t (by simp [ht])) (h.clean (hts _ (by simp)) hb)
    rw [displayChunks_append, nrm_append]
    refine (List.Sublist.append (List.Sublist.refl _) h2).trans ?_
    have e : unlex (t :: ts) = t.src ++ unlex ts := by simp [unlex]
    rw [e, ← nrm_append, ← List.append_assoc, ← List.append_assoc, nrm_append _ (unlex ts),
      nrm_append _ (unlex ts)]
    exact List.Sublist.append h1 (List.Sublist.refl _)

theorem parseFuel_sub (n : Nat) {s d} (h : parseFuel n s = .ok d) :
    (nrm (displayChunks d)).Sublist (nrm (unlex (lex false false s))) := by
  induction n generalizing s d with
  | zero => simp [parseFuel] at h
  | succ n ih =>
    have := (parseFuel_ok h).sub
      (fun a cs hc ha => by have := ih ha; rwa [unlex_lex_clean hc] at this)
      (lex_ok _ _ _) (by intro a ha; cases ha)
    simpa [Buffer.shown] using this

theorem unlex_cons (t : Tok) (ts) : unlex (t :: ts) = t.src ++ unlex ts := by simp [unlex]

theorem unlex_lex_sub : ∀ s e cm, (unlex (lex e cm s)).Sublist (if e then '\\' :: s else s) := by
  refine lex_induction ?_ ?_ ?_ ?_ ?_ ?_ ?_
  · intro e cm; simp [lex, unlex]
  · intro e cm s ih
    rw [lex_nl, unlex_cons]
    cases e
    · simpa [Tok.src] using ih
    · simpa [Tok.src] using ih
  · intro cm s ih; rw [lex_pct]; simpa using ih.trans (List.sublist_cons_self ..)
  · intro cm s ih; rw [lex_bs]; simpa using ih
  · intro c s hn ih; rw [lex_esc, unlex_cons]; simpa [Tok.src] using ih
  · intro c s hn h1 h2 ih; rw [lex_char h1 h2, unlex_cons]; simpa [Tok.src] using ih
  · intro e c s hn h ih
    have : lex e true (c :: s) = lex e true s := by
      cases e
      · exact lex_comment hn (h rfl).2 _ _
      · exact lex_comment' hn _
    rw [this]
    refine ih.trans ?_
    cases e <;> simp

theorem nrm_sub {a b : Str} (h : a.Sublist b) : (nrm a).Sublist (nrm b) := h.map _

theorem fromStr_sub {s d} (h : fromStr s = .ok d) : (nrm (displayChunks d)).Sublist (nrm s) := by
  have h2 := unlex_lex_sub s false false
  simp at h2
  exact (parseFuel_sub _ h).trans (nrm_sub h2)

theorem fromStr_sub_strip {s d} (h : fromStr s = .ok d) (hs : NoBackslashInComments s) :
    (nrm (displayChunks d)).Sublist (nrm (stripComments s)) := by
  have h1 := parseFuel_sub _ h
  rw [← (lex_strip s false false).1 rfl rfl hs] at h1
  have h2 := unlex_lex_sub (stripComments s) false false
  simp at h2
  exact h1.trans (nrm_sub h2)

end LatexAst.Ast1
